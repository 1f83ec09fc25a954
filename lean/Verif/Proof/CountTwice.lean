import Verif.Proof.CountSExpr
/-!
# Counting calls: a text read twice

`x => f(op y) => z` is read as two rules, `x => f` and `(op y) => z`: the parenthesis is first tried as the argument list of a call.  If it is a nested expression,
the first attempt is cheap.
-/
namespace Verif.Proof.Count
open Verif Verif.Spec

/-- What is left is a suffix. -/
theorem litRest_suffix {v l l' : List Char} (h : litRest v l = some l') : l' <:+ l := by
  induction v generalizing l with
  | nil => simp only [litRest, Option.some.injEq] at h; rw [h]; exact List.suffix_refl _
  | cons a v ih =>
    cases l with
    | nil => simp [litRest] at h
    | cons c l =>
      simp only [litRest] at h
      split at h
      · exact (ih h).trans (List.suffix_cons _ _)
      · cases h

theorem ev_suffix {R j l r k} (h : Ev R j l r k) : ∀ l', r = some l' → l' <:+ l := by
  induction h with
  | any_ok => intro l' e; cases e; exact List.suffix_cons _ _
  | cls_ok => intro l' e; cases e; exact List.suffix_cons _ _
  | lit => intro l' e; exact litRest_suffix e
  | not_ok => intro l' e; cases e; exact List.suffix_refl _
  | opt_none => intro l' e; cases e; exact List.suffix_refl _
  | seq_nil => intro l' e; cases e; exact List.suffix_refl _
  | loop_end => intro l' e; cases e; exact List.suffix_refl _
  | any_end => intro l' e; cases e
  | cls_bad => intro l' e; cases e
  | cls_end => intro l' e; cases e
  | alt_nil => intro l' e; cases e
  | plus_bad => intro l' e; cases e
  | seq_bad => intro l' e; cases e
  | not_bad => intro l' e; cases e
  | plus_ok _ _ i1 i2 => intro l' e; exact (i2 _ e).trans (i1 _ rfl)
  | seq_ok _ _ i1 i2 => intro l' e; exact (i2 _ e).trans (i1 _ rfl)
  | loop_more _ _ i1 i2 => intro l' e; exact (i2 _ e).trans (i1 _ rfl)
  | alt_next _ _ _ i2 => exact i2
  | action _ i => exact i
  | labeled _ i => exact i
  | ruleRef _ i => exact i
  | opt_some _ i => exact i
  | choice _ i => exact i
  | seq _ i => exact i
  | star _ i => exact i
  | alt_ok _ i => exact i

theorem arg_ok {l x k} (h : Ev gRules (.e gArg) l (some x) k) : Opens (sk l) ∧ x.length ≤ (sk l).length := by
  obtain ⟨k₁, rfl, h₁⟩ := inv_seqe h
  rcases inv_seq h₁ with ⟨l1, k1, k2, rfl, h1, h₂⟩ | ⟨e, -⟩
  · obtain ⟨-, ⟨e, -⟩ | ⟨e, -⟩⟩ := skips_ev h1
    · cases e
      rcases inv_seq h₂ with ⟨l2, k3, k4, rfl, h2, h₃⟩ | ⟨e, -⟩
      · obtain ⟨e, rfl⟩ := inv_seq_nil h₃
        cases e
        refine ⟨?_, ev_len h2 _ rfl⟩
        rcases operand_ev (val_ev _) h2 with ⟨x, -, -, ho⟩ | ⟨x, -, -, ho⟩ | ⟨e, -⟩ | ⟨e, -⟩
        · exact ho
        · exact ho
        · cases e
        · cases e
      · cases e
    · cases e
  · cases e

/-- What follows the operator starts with an operand or an end. -/
theorem close_ok {w z k} (h : Ev gRules (.seq gClose) w (some z) k) : z.length < (sk w).length ∧ (sk w).head? ≠ some ',' ∧ (sk w).head? ≠ some '/' := by
  rcases inv_seq h with ⟨x, k1, k2, rfl, g1, g2⟩ | ⟨e, -⟩
  · obtain ⟨k₀, rfl, g1'⟩ := inv_labeled g1
    obtain ⟨_, k₁, e, rfl, g1''⟩ := inv_star g1'
    cases e
    rcases end_ev g2 with ⟨_, e, -, hz, -, hh⟩ | ⟨e, -⟩
    · cases e
      rcases inv_loop g1'' with ⟨l', j1, j2, rfl, g3, g4⟩ | ⟨e, -⟩
      · obtain ⟨ho, hl⟩ := arg_ok g3
        have := ev_len g4 _ rfl
        have := sk_le x
        exact ⟨by omega, ho.head.2.2.2, ho.head.1⟩
      · cases e
        refine ⟨hz, ?_, ?_⟩ <;> rcases hh with hh | hh | hh <;> rw [hh] <;> simp
    · cases e
  · cases e

/-- The operator, character by character. -/
theorem op_ok {R v w k} (h : Ev R (.e gOp) v (some w) k) :
    (∃ t, v = '(' :: t) ∨
    ∃ c t, v = c :: t ∧ isWord c = true ∧ (w = v.dropWhile isWord ∨
      ∃ u u', v.dropWhile isWord = '(' :: u ∧ (∃ c t, u = c :: t ∧ isWord c = true) ∧ u.dropWhile isWord = '|' :: u' ∧ w.length < u'.length) := by
  obtain ⟨k₀, rfl, h₀⟩ := inv_action h
  obtain ⟨k₁, rfl, h₁⟩ := inv_labeled h₀
  rcases inv_plus h₁ with ⟨l1, l2, k1, k2, e, rfl, h1, h2⟩ | ⟨k', e, -⟩
  · cases e
    rcases item_ev h1 with ⟨c, t, hl, hc, e, hlt, hk⟩ | ⟨u, u', x, rfl, -⟩ | ⟨e, -⟩
    · cases e
      refine .inr ⟨c, t, hl, hc, ?_⟩
      rcases inv_loop h2 with ⟨l', j1, j2, rfl, g1, g2⟩ | ⟨e, -⟩
      · rcases item_ev g1 with ⟨d, t', hl', hd, -⟩ | ⟨u, u', x, hp, hw, hu, e, hx, -⟩ | ⟨e, -⟩
        · rw [dropWhile_head hl'] at hd; cases hd
        · cases e
          have := ev_len g2 _ rfl
          exact .inr ⟨u, u', hp, hw, hu, by omega⟩
        · cases e
      · cases e; exact .inl rfl
    · exact .inl ⟨_, rfl⟩
    · cases e
  · cases e

/-- The end of a call. -/
def gTail2 : List PExpr := [.zeroOrMore gMore, g_, .lit [')']]

theorem tail2_ev {x r k} (hn : (sk x).head? ≠ some ',') (h : Ev gRules (.seq gTail2) x r k) :
    k + 8 * (sk x).length ≤ 8 * x.length + 20 + 2 * pen (sk x) ∧ ((sk x).head? ≠ some ')' → r = none) := by
  rcases inv_seq h with ⟨x1, k1, k2, rfl, h1, h₂⟩ | ⟨rfl, h1⟩
  · obtain ⟨_, k₁, e, rfl, h1'⟩ := inv_star h1
    cases e
    obtain ⟨e, hk1⟩ := loop_stop (fun u _ => tail_ev u) hn h1'
    cases e
    have := sk_le x
    rcases inv_seq h₂ with ⟨x2, k3, k4, rfl, h2, h₃⟩ | ⟨rfl, h2⟩
    · obtain ⟨e, hk2⟩ := skip0_ev h2
      cases e
      rcases inv_seq h₃ with ⟨x3, k5, k6, rfl, h3, h₄⟩ | ⟨rfl, h3⟩
      · obtain ⟨rfl, rfl⟩ := inv_seq_nil h₄
        obtain ⟨rfl, ⟨z, hz, e'⟩ | ⟨e', -⟩⟩ := lit1 h3
        · exact ⟨by omega, fun hh => by rw [hz] at hh; exact absurd rfl hh⟩
        · cases e'
      · obtain ⟨rfl, -⟩ := lit1 h3
        exact ⟨by omega, fun _ => rfl⟩
    · obtain ⟨e, -⟩ := skip0_ev h2; cases e
  · obtain ⟨_, _, e, -⟩ := inv_star h1; cases e

/-- Anything else ends the call. -/
theorem tail2_stop {c : Char} {t r k} (hb : isBlank c = false) (h1 : c ≠ '/') (h2 : c ≠ ',') (h3 : c ≠ ')') (h : Ev gRules (.seq gTail2) (c :: t) r k) : r = none ∧ k ≤ 20 := by
  have hs : sk (c :: t) = c :: t := sk_self hb h1
  obtain ⟨hk, hr⟩ := tail2_ev (by rw [hs]; simpa using h2) h
  rw [hs, pen_zero (by simpa using h1)] at hk
  exact ⟨hr (by rw [hs]; simpa using h3), by omega⟩

/-- A call is an expression and an end. -/
theorem tail_inv {u r k} (h : Ev gRules (.seq gTail) u r k) :
    ∃ k1 k2, k = k1 + k2 ∧ k1 + 4 * (sk u).length ≤ 4 * u.length + 6 + pen (sk u) ∧
      ((∃ x k3 k4, k2 = k3 + k4 ∧ Ev gRules (.e (.ruleRef .Expr)) (sk u) (some x) k3 ∧ Ev gRules (.seq gTail2) x r k4) ∨
       (r = none ∧ Ev gRules (.e (.ruleRef .Expr)) (sk u) none k2)) := by
  rcases inv_seq h with ⟨l1, k1, k2, rfl, h1, h₂⟩ | ⟨rfl, h1⟩
  · obtain ⟨e, hk1⟩ := skip0_ev h1
    cases e
    have := sk_le u
    refine ⟨k1, k2, rfl, by omega, ?_⟩
    rcases inv_seq h₂ with ⟨x, k3, k4, rfl, h2, h₃⟩ | ⟨rfl, h2⟩
    · exact .inl ⟨x, k3, k4, rfl, h2, h₃⟩
    · exact .inr ⟨rfl, h2⟩
  · obtain ⟨e, -⟩ := skip0_ev h1; cases e

theorem idRest_eq {v w} (h : idRest v = some w) : w = v.dropWhile isWord := by
  obtain ⟨c, t, rfl, hc⟩ := idRest_word h
  simp only [idRest, hc, if_true, Option.some.injEq] at h
  rw [List.dropWhile_cons_of_pos (lower_word hc)]
  exact h.symm

/-- The names of an alternative are not the arguments of a call. -/
theorem tail_names {u u' r k} (hw : ∃ c t, u = c :: t ∧ isWord c = true) (hu : u.dropWhile isWord = '|' :: u') (h : Ev gRules (.seq gTail) u r k) :
    r = none ∧ k + 2 * u'.length ≤ 2 * u.length + 60 := by
  have hul := dropWhile_le (p := isWord) u
  rw [hu] at hul
  simp only [List.length_cons] at hul
  obtain ⟨c, t, rfl, hc⟩ := hw
  have hs : sk (c :: t) = c :: t := sk_self (word_blank hc).1 (word_blank hc).2.1
  have hp : pen (c :: t) = 0 := pen_zero (by simpa using (word_blank hc).2.1)
  obtain ⟨k1, k2, rfl, hk1, hh⟩ := tail_inv h
  rw [hs] at hh hk1
  rw [hp] at hk1
  rcases hh with ⟨x, k3, k4, rfl, he, h2⟩ | ⟨rfl, he⟩
  · rcases expr_ev he with ⟨v, x', kb, e, hid, ht, hke⟩ | ⟨w, e, hid, -, hke⟩ | ⟨v, kb, e, hid, ht, hke⟩ | ⟨w, e', e, hke, -⟩ | ⟨e, -⟩
    · rw [← idRest_eq hid] at hu; cases hu
    · cases e
      rw [← idRest_eq hid] at hu
      subst hu
      simp only [List.length_cons] at hke
      obtain ⟨rfl, hk⟩ := tail2_stop (by decide) (by decide) (by decide) (by decide) h2
      exact ⟨rfl, by simp only [List.length_cons] at *; omega⟩
    · rw [← idRest_eq hid] at hu; cases hu
    · cases e; cases e'
      rw [List.dropWhile_cons_of_pos hc] at hu
      cases t with
      | nil => cases hu
      | cons d t =>
        have hd : d = '|' ∨ isWord d = true := by
          rw [List.dropWhile_cons] at hu
          split at hu
          · exact .inr ‹_›
          · cases hu; exact .inl rfl
        have : isBlank d = false ∧ d ≠ '/' ∧ d ≠ ',' ∧ d ≠ ')' := by
          rcases hd with rfl | hd
          · decide
          · have := word_blank hd; exact ⟨this.1, this.2.1, this.2.2.2.1, this.2.2.2.2.1⟩
        obtain ⟨rfl, hk⟩ := tail2_stop this.1 this.2.1 this.2.2.1 this.2.2.2 h2
        exact ⟨rfl, by simp only [List.length_cons] at *; omega⟩
    · cases e
  · rcases expr_ev he with ⟨v, x', kb, e, -⟩ | ⟨w, e, -⟩ | ⟨v, kb, e, -⟩ | ⟨w, -, e, -⟩ | ⟨-, -, hk, -⟩
    · cases e
    · cases e
    · cases e
    · cases e
    · exact ⟨rfl, by omega⟩

/-- A nested expression is soon seen not to be the arguments of a call. -/
theorem twice {u z k r kb} (h : Ev gRules (.seq gBody) ('(' :: u) (some z) k) (ht : Ev gRules (.seq gTail) u r kb) :
    kb + 8 * z.length ≤ 8 * u.length + 120 := by
  rcases inv_seq h with ⟨l1, k1, k2, rfl, h1, h₂⟩ | ⟨e, -⟩
  rotate_left
  · cases e
  obtain ⟨rfl, ⟨t, e, e'⟩ | ⟨e', -⟩⟩ := lit1 h1
  rotate_left
  · cases e'
  cases e'; cases e
  rcases inv_seq h₂ with ⟨l2, k3, k4, rfl, h2, h₃⟩ | ⟨e, -⟩
  rotate_left
  · cases e
  obtain ⟨e, -⟩ := skip0_ev h2
  cases e
  rcases inv_seq h₃ with ⟨w, k5, k6, rfl, h3, h₄⟩ | ⟨e, -⟩
  rotate_left
  · cases e
  obtain ⟨k7, rfl, h3'⟩ := inv_labeled h3
  have hpen : pen (sk u) = 0 := by
    rcases op_ev h3' with ⟨_, -, -, -, hp⟩ | ⟨e, -⟩
    · exact hp
    · cases e
  have hwlen : w.length ≤ (sk u).length := ev_len h3' _ rfl
  obtain ⟨hz, hz1, hz2⟩ := close_ok h₄
  have hsw := sk_le w
  have hsl := sk_le u
  obtain ⟨j1, j2, rfl, hj1, hh⟩ := tail_inv ht
  rw [hpen] at hj1
  rcases hh with ⟨x, k3, k4, rfl, he, h2⟩ | ⟨rfl, he⟩
  · rcases op_ok h3' with ⟨t, hv⟩ | ⟨c, t, hv, hc, hop⟩
    · have hid : idRest (sk u) = none := by rw [hv]; simp [idRest]; decide
      rcases expr_ev he with ⟨v, x', kb, e, hid', -⟩ | ⟨w, e, hid', -⟩ | ⟨v, kb, e, hid', -⟩ | ⟨w, e', -⟩ | ⟨e, -⟩
      · rw [hid] at hid'; cases hid'
      · rw [hid] at hid'; cases hid'
      · rw [hid] at hid'; cases hid'
      · rw [hv] at e'; cases e'
      · cases e
    · have hdl := dropWhile_le (p := isWord) (sk u)
      -- the operator is followed by something else than a parenthesis
      have plain : w = (sk u).dropWhile isWord → (sk u).dropWhile isWord = x → k3 + 2 * x.length ≤ 2 * (sk u).length + 20 → j1 + (k3 + k4) + 8 * z.length ≤ 8 * u.length + 120 := by
        intro hw hx hk3
        rw [hx] at hw
        subst hw
        obtain ⟨hk4, -⟩ := tail2_ev hz1 h2
        rw [pen_zero hz2] at hk4
        omega
      rcases expr_ev he with ⟨v, x', kb, e, hid, ht', hke⟩ | ⟨w', e, hid, hh, hke⟩ | ⟨v, kb, e, hid, ht', hke⟩ | ⟨w', e', e, hke, -⟩ | ⟨e, -⟩
      · rcases hop with hw | ⟨v', u', hu, hww, hu', hlt⟩
        · rw [← idRest_eq hid] at hw
          subst hw
          obtain ⟨e, -⟩ := close_stop (sk_self (by decide) (by decide)) (by simp) (by simp) (by simp) (by simp) h₄
          cases e
        · rw [← idRest_eq hid] at hu
          cases hu
          obtain ⟨e, -⟩ := tail_names hww hu' ht'
          cases e
      · cases e
        rcases hop with hw | ⟨v', u', hu, hww, hu', hlt⟩
        · exact plain hw (idRest_eq hid).symm hke
        · rw [← idRest_eq hid] at hu
          rw [hu] at hh; exact absurd rfl hh
      · cases e
        rcases hop with hw | ⟨v', u', hu, hww, hu', hlt⟩
        · rw [← idRest_eq hid] at hw
          subst hw
          obtain ⟨e, -⟩ := close_stop (sk_self (by decide) (by decide)) (by simp) (by simp) (by simp) (by simp) h₄
          cases e
        · rw [← idRest_eq hid] at hu
          cases hu
          obtain ⟨-, hkb⟩ := tail_names hww hu' ht'
          obtain ⟨-, hk4⟩ := tail2_stop (by decide) (by decide) (by decide) (by decide) h2
          have h5 := dropWhile_le (p := isWord) v
          rw [hu'] at h5
          have := idRest_lt hid
          simp only [List.length_cons] at h5 this
          omega
      · cases e
        have hx : (sk u).dropWhile isWord = x.dropWhile isWord := by rw [e', List.dropWhile_cons_of_pos (by decide)]
        have hxl : (sk u).length = x.length + 1 := by rw [e']; rfl
        by_cases hd : ∃ d t, x = d :: t ∧ isWord d = true
        · obtain ⟨d, t, rfl, hd⟩ := hd
          have hb := word_blank hd
          obtain ⟨-, hk4⟩ := tail2_stop hb.1 hb.2.1 hb.2.2.2.1 hb.2.2.2.2.1 h2
          omega
        · have hxx : x.dropWhile isWord = x := by
            cases x with
            | nil => rfl
            | cons d t => exact List.dropWhile_cons_of_neg (fun hw => hd ⟨d, t, rfl, hw⟩)
          rw [hxx] at hx
          rcases hop with hw | ⟨v', u', hu, hww, hu', hlt⟩
          · exact plain hw hx (by omega)
          · rw [hx] at hu
            subst hu
            obtain ⟨-, hk4⟩ := tail2_stop (by decide) (by decide) (by decide) (by decide) h2
            omega
      · cases e
  · rcases expr_ev he with ⟨v, x', kb, e, -⟩ | ⟨w, e, -⟩ | ⟨v, kb, e, -⟩ | ⟨w, -, e, -⟩ | ⟨-, -, hk, -⟩
    · cases e
    · cases e
    · cases e
    · cases e
    · omega

end Verif.Proof.Count

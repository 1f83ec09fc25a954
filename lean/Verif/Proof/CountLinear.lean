import Verif.Proof.CountReal
/-!
# Counting calls: the linear bound
-/
namespace Verif.Proof.Count
open Verif Verif.Spec

/-- What has been paid for a parenthesis that has been tried as the arguments of a call. -/
def Paid (kb : Nat) (s : List Char) : Prop := kb = 0 ∨ ∃ u, s = '(' :: u ∧ kb ≤ 100 * u.length + 40 ∧ Ev gRules (.seq gTail) u none kb

theorem Paid.le {kb s} (h : Paid kb s) : kb ≤ 100 * s.length + 40 := by
  rcases h with rfl | ⟨u, rfl, hk, -⟩
  · omega
  · simp only [List.length_cons]; omega

theorem item_total {s r k} (h : Ev gRules (.e gRuleItem) s r k) : k ≤ 112 * s.length + 300 := by
  have hle := sk_le s
  have hpl := pen_le (sk s)
  obtain ⟨j1, j2, rfl, hj1, ⟨x, j3, j4, rfl, rfl, hr, hj4, hsx⟩ | ⟨rfl, hr⟩⟩ := fileItem_inv h
  · have hxl : x.length ≤ (sk s).length := ev_len hr _ rfl
    have hlx := sk_le x
    have hpx := pen_le (sk x)
    rcases rule_ev hr with ⟨_, c, e, -, hcs, hlt, hk3, hns⟩ | ⟨y, e, hk3, hns⟩ | ⟨u, kb', c, e, -, hcs, hlt, ht, hkb', hk3, hns⟩ | ⟨e, -⟩
    · have := pen_le c; have := hcs.length_le; cases e; omega
    · omega
    · have := pen_le c; have := hcs.length_le; omega
    · cases e
  · rcases rule_ev hr with ⟨x, c, e, -⟩ | ⟨x, e, -⟩ | ⟨u, kb, c, e, -⟩ | ⟨-, hk⟩
    · cases e
    · cases e
    · cases e
    · omega

/-- One rule of a file, if its condition is no comment. -/
theorem item_step {s l' k kb} (hp : Paid kb s) (h : Ev gRules (.e gRuleItem) s (some l') k) (hf : ∀ c, CondIn (sk s) c → pen c = 0) :
    (∃ kb', Paid kb' l' ∧ l'.length < s.length ∧ k + kb + 250 * l'.length ≤ 250 * s.length + kb') ∨
    (sk l' = l' ∧ (l'.head? = some '/' ∨ l'.head? = some ':') ∧ k + kb + 103 * l'.length + 210 ≤ 250 * s.length + 700) := by
  have hle := sk_le s
  have hpl := pen_le (sk s)
  obtain ⟨j1, j2, rfl, hj1, ⟨x, j3, j4, rfl, e, hr, hj4, hsx⟩ | ⟨e, -⟩⟩ := fileItem_inv h
  rotate_left
  · cases e
  cases e
  have hxl : x.length ≤ (sk s).length := ev_len hr _ rfl
  have hlx := sk_le x
  have hpx := pen_le (sk x)
  have hkb : kb + 8 * x.length ≤ 8 * (sk s).length + 120 := by
    rcases hp with rfl | ⟨u, rfl, -, ht⟩
    · omega
    · have hsp : sk ('(' :: u) = '(' :: u := sk_self (by decide) (by decide)
      rw [hsp] at hr
      obtain ⟨z, k', hb, hz⟩ := rule_paren hr
      have := twice hb ht
      rw [hsp]
      simp only [List.length_cons]
      omega
  rcases rule_ev hr with ⟨_, c, e, hc, hcs, hlt, hk3, hns⟩ | ⟨y, e, hk3, hns⟩ | ⟨u, kb', c, e, hc, hcs, hlt, ht, hkb', hk3, hns⟩ | ⟨e, -⟩
  · cases e
    rw [pen_zero hns] at hj1
    have hcl := hcs.length_le
    have hp0 : pen c = 0 := by rcases hc with h | h; exact h; exact hf c h
    by_cases hh : (sk x).head? = some '/'
    · exact .inr ⟨sk_sk x, .inl hh, by omega⟩
    · rw [pen_zero hh] at hj4
      exact .inl ⟨0, .inl rfl, by omega, by omega⟩
  · cases e
    rw [pen_zero hns] at hj1
    have hsy : sk (':' :: y) = ':' :: y := sk_self (by decide) (by decide)
    rw [hsy] at hj4 ⊢
    rw [pen_zero (by simp)] at hj4
    refine .inr ⟨hsy, .inr rfl, ?_⟩
    have hyl : y.length + 1 ≤ (sk s).length := hxl
    simp only [List.length_cons] at *
    omega
  · cases e
    rw [pen_zero hns] at hj1
    have hsy : sk ('(' :: u) = '(' :: u := sk_self (by decide) (by decide)
    rw [hsy] at hj4 ⊢
    rw [pen_zero (by simp)] at hj4
    have hcl := hcs.length_le
    have hp0 : pen c = 0 := by rcases hc with h | h; exact h; exact hf c h
    refine .inl ⟨kb', .inr ⟨u, rfl, hkb', ht⟩, by simp only [List.length_cons]; omega, ?_⟩
    simp only [List.length_cons] at *
    omega
  · cases e

/-- The loop that is about to end. -/
theorem realLoop_stop {lib : GoLib} {n vs vs' s t o k} (hst : s.pos = t.pos) (hv : vs.isEmpty = vs'.isEmpty) (hs : sk (rns s.pos) = rns s.pos) (hh : (rns s.pos).head? = some '/' ∨ (rns s.pos).head? = some ':')
    (h : runNLoop (ruleGrammar lib) n gRuleItem false vs s = some (o, k)) (hi : runNLoop (idle (ruleGrammar lib)) n gRuleItem false vs' t ≠ none) :
    k ≤ 103 * s.pos.length + 210 := by
  have h1 := (runN_sim (ruleGrammar lib) n).2.2.2 gRuleItem false vs vs' s t hv hst
  have h2 := (runN_ev (ruleGrammar lib) n).2.2.2 gRuleItem false vs' t
  rw [h] at h1
  have hlen : (rns s.pos).length = s.pos.length := List.length_map ..
  rw [← hst] at h2
  revert h1 h2 hi
  rcases runNLoop (idle (ruleGrammar lib)) n gRuleItem false vs' t with _ | ⟨⟨w, t'⟩ | t' | t', k'⟩ <;> intro hi h1 h2
  · exact absurd rfl hi
  · have hk := fileLoop_stop hs hh h2.2
    have : k ≤ k' := by
      rcases o with _ | _ | _
      · exact Nat.le_of_eq h1.1
      · exact h1.elim
      · exact h1
    omega
  · exact absurd h2.2.1 (by simp)
  · exact h2.elim

theorem addCalls_some {c x o k} (h : addCalls c x = some (o, k)) : ∃ k', x = some (o, k') ∧ k = c + k' := by
  rcases x with _ | ⟨o', d⟩
  · cases h
  · simp only [addCalls, Option.some.injEq, Prod.mk.injEq] at h
    obtain ⟨rfl, rfl⟩ := h
    exact ⟨d, rfl, rfl⟩

theorem addCalls_ne {c x} (h : addCalls c x ≠ none) : x ≠ none := by
  rintro rfl; exact h rfl

/-- The condition of a rule of the file that has matched is no comment. -/
theorem item_fine {lib : GoLib} (hl : RejectsComment lib) {n s v s' k} (h : runN (ruleGrammar lib) n gRuleItem s = some (.ok v s', k)) : ∀ c, CondIn (sk (rns s.pos)) c → pen c = 0 := by
  intro c hc
  obtain ⟨m, k1, rfl, h1⟩ := rn_seqe h
  obtain ⟨m, v1, s1, _, _, rfl, h2, h1⟩ := rn_seq h1
  obtain ⟨m, v2, s2, _, _, rfl, h3, h1⟩ := rn_seq h1
  exact rule_fine hl h3 (by rw [Option.some.inj (skip0_ev (runN_real h2)).1]; exact hc)

theorem realLoop_le {lib : GoLib} (hl : RejectsComment lib) {n vs vs' s t o k kb} (hst : s.pos = t.pos) (hv : vs.isEmpty = vs'.isEmpty) (hp : Paid kb (rns s.pos))
    (h : runNLoop (ruleGrammar lib) n gRuleItem false vs s = some (o, k)) (hi : runNLoop (idle (ruleGrammar lib)) n gRuleItem false vs' t ≠ none) :
    k + kb ≤ 250 * s.pos.length + 700 := by
  induction n generalizing vs vs' s t o k kb with
  | zero => simp [runNLoop] at h
  | succ n ih =>
    have hlen : (rns s.pos).length = s.pos.length := List.length_map ..
    have hpk := hp.le
    have hsim := ((runN_sim (ruleGrammar lib) n).1 gRuleItem (push s) (push t) hst)
    have hev := (runN_ev (ruleGrammar lib) n).1 gRuleItem (push t)
    simp only [runNLoop] at h hi
    generalize hx : runN (ruleGrammar lib) n gRuleItem (push s) = x at h hsim
    generalize runN (idle (ruleGrammar lib)) n gRuleItem (push t) = z at hi hsim hev
    rcases z with _ | ⟨⟨w', t1⟩ | t1 | t1, k'⟩
    · exact absurd rfl hi
    · rcases x with _ | ⟨⟨w, s1⟩ | s1 | s1, k1⟩
      · exact hsim.elim
      · simp only [popToN, popTo] at h hi
        obtain ⟨k2, h2, rfl⟩ := addCalls_some h
        have hi2 := addCalls_ne hi
        obtain ⟨rfl, e⟩ := hsim
        have h3 := runN_real hx
        rcases item_step hp h3 (have f := item_fine hl hx; f) with ⟨kb', hp', hlt, hk⟩ | ⟨hs, hh, hk⟩
        · have := ih (s := { s1 with frame := s.frame }) (t := { t1 with frame := t.frame }) e (by cases vs <;> cases vs' <;> rfl) hp' h2 hi2
          have e1 : (rns s1.pos).length = s1.pos.length := List.length_map ..
          simp only at this
          omega
        · have := realLoop_stop (s := { s1 with frame := s.frame }) (t := { t1 with frame := t.frame }) e (by cases vs <;> cases vs' <;> rfl) hs hh h2 hi2
          have e1 : (rns s1.pos).length = s1.pos.length := List.length_map ..
          simp only at this
          omega
      · exact hsim.elim
      · simp only [popToN, popTo, Option.some.injEq, Prod.mk.injEq] at h
        obtain ⟨-, rfl⟩ := h
        have h1 : k1 ≤ k' := hsim
        have h2 : Ev gRules (.e gRuleItem) (rns (push t).pos) _ k' := hev
        have := item_total h2
        have e1 : (rns (push t).pos).length = s.pos.length := by rw [hst]; exact List.length_map ..
        omega
    · have h2 : Ev gRules (.e gRuleItem) (rns (push t).pos) _ k' := hev.2
      have hk := item_total h2
      have e1 : (rns (push t).pos).length = s.pos.length := by rw [hst]; exact List.length_map ..
      have h1 : k ≤ k' := by
        rcases x with _ | ⟨⟨w, s1⟩ | s1 | s1, k1⟩
        · exact hsim.elim
        · exact hsim.elim
        · simp only [popToN, popTo, Bool.false_and, Bool.false_eq_true, if_false, Option.some.injEq, Prod.mk.injEq] at h
          rw [← h.2]; exact Nat.le_of_eq hsim.1
        · simp only [popToN, popTo, Option.some.injEq, Prod.mk.injEq] at h
          rw [← h.2]; exact hsim
      omega
    · exact hev.elim

theorem exprCnt_linear {lib : GoLib} (hl : RejectsComment lib) (bs : List UInt8) : exprCnt lib bs ≤ 250 * bs.length + 710 := by
  have hne : runN (idle (ruleGrammar lib)) (depthBound bs.length) gFile (push (initSt (decode bs))) ≠ none := idle_ends lib bs
  have hpos : (push (initSt (decode bs))).pos = decode bs := initSt_pos _
  have hb := decode_length bs
  unfold exprCnt
  show (match runN (ruleGrammar lib) (depthBound bs.length) gFile (push (initSt (decode bs))) with | some (_, c) => c | none => 0) ≤ _
  generalize push (initSt (decode bs)) = s at hne hpos ⊢
  rw [← hpos] at hb
  generalize depthBound bs.length = n at hne ⊢
  suffices ∀ o c, runN (ruleGrammar lib) n gFile s = some (o, c) → c ≤ 250 * s.pos.length + 710 by
    generalize runN (ruleGrammar lib) n gFile s = x at this
    rcases x with _ | ⟨o, c⟩
    · simp
    · have := this o c rfl; simp only; omega
  intro o c h
  -- down to the loop
  match n, hne, h with
  | n + 5, hne, h =>
    have hloop : ∀ {o c}, runNLoop (ruleGrammar lib) n gRuleItem false [] (push s) = some (o, c) → c ≤ 250 * s.pos.length + 700 := by
      intro o c g
      have hi : runNLoop (idle (ruleGrammar lib)) n gRuleItem false [] (push s) ≠ none := by
        intro e
        apply hne
        simp only [gFile, runN, runNSeq]
        unfold gRuleItem at e
        rw [e]
        rfl
      have := realLoop_le hl (kb := 0) (s := push s) (t := push s) rfl rfl (.inl rfl) g hi
      exact this
    unfold gRuleItem at hloop
    simp only [gFile, runN, runNSeq] at h
    generalize runNLoop (ruleGrammar lib) n (.seq [g_, .ruleRef .Rule, g_]) false [] (push s) = x at h hloop
    have hany : ∀ s1 : St, runN (ruleGrammar lib) n .any s1 = none ∨ runN (ruleGrammar lib) n .any s1 = some (parseAny s1, 1) := by
      intro s1
      cases n with
      | zero => exact .inl rfl
      | succ n => exact .inr rfl
    rcases x with _ | ⟨⟨w, s1⟩ | s1 | s1, k1⟩
    · simp [popToN, addCalls] at h
    · have hk := hloop rfl
      simp only [popToN, popTo, addCalls] at h
      rcases hany (push { pos := s1.pos, frame := s.frame.set .rs w, errs := s1.errs, asked := s1.asked }) with e | e
      · rw [e] at h; simp at h
      · rw [e] at h
        simp only [parseAny, push] at h
        cases hp1 : s1.pos with
        | nil =>
          rw [hp1] at h
          simp only [popTo, Option.some.injEq, Prod.mk.injEq] at h
          omega
        | cons a l =>
          rw [hp1] at h
          simp only [popTo, Option.some.injEq, Prod.mk.injEq] at h
          omega
    · have hk := hloop rfl
      simp only [popToN, popTo, addCalls, Option.some.injEq, Prod.mk.injEq] at h
      omega
    · have hk := hloop rfl
      simp only [popToN, popTo, addCalls, Option.some.injEq, Prod.mk.injEq] at h
      omega
  | 0, hne, h => simp [runN] at h
  | 1, hne, h => simp [gFile, runN, addCalls] at h
  | 2, hne, h => simp [gFile, runN, runNSeq, addCalls] at h
  | 3, hne, h => simp [gFile, runN, runNSeq, addCalls] at h
  | 4, hne, h => simp [gFile, runN, runNSeq, popToN, addCalls] at h

end Verif.Proof.Count

import Verif.Proof.CountRule
import Verif.Proof.CountRun
/-!
# Counting calls: `File`
-/
namespace Verif.Proof.Count
open Verif Verif.Spec

/-- The number of elements after the last one that is `x`. -/
def after {α} [DecidableEq α] (x : α) (l : List α) : Nat := (l.reverse.takeWhile (· ≠ x)).length

theorem takeWhile_append_len {α} (p : α → Bool) (a b : List α) : (a.takeWhile p).length ≤ ((a ++ b).takeWhile p).length := by
  induction a with
  | nil => simp
  | cons c a ih =>
    simp only [List.cons_append, List.takeWhile_cons]
    split
    · simp only [List.length_cons]; omega
    · simp

section
variable {α} [DecidableEq α] {x : α}

theorem after_suffix {l' l : List α} (h : l' <:+ l) : after x l' ≤ after x l := by
  obtain ⟨t, rfl⟩ := h
  simp only [after, List.reverse_append]
  exact takeWhile_append_len _ _ _

theorem after_le (l : List α) : after x l ≤ l.length := by
  have := (List.takeWhile_sublist (fun y => decide (y ≠ x)) (l := l.reverse)).length_le
  simpa [after] using this

theorem after_none {l : List α} (h : x ∉ l) : after x l = l.length := by
  have key : ∀ m : List α, x ∉ m → m.takeWhile (fun y => decide (y ≠ x)) = m := by
    intro m hm
    induction m with
    | nil => rfl
    | cons d m ih =>
      rw [List.takeWhile_cons_of_pos (by simp only [decide_eq_true_eq]; rintro rfl; exact hm (by simp)), ih (fun h => hm (List.mem_cons_of_mem _ h))]
  unfold after
  rw [key _ (by simpa using h), List.length_reverse]

theorem after_cons {l : List α} {c : α} (h : x ∈ l) : after x (c :: l) = after x l := by
  have key : ∀ (m : List α), x ∈ m → (m ++ [c]).takeWhile (fun y => decide (y ≠ x)) = m.takeWhile (fun y => decide (y ≠ x)) := by
    intro m hm
    induction m with
    | nil => cases hm
    | cons d m ih =>
      rw [List.cons_append]
      by_cases hd : d = x
      · rw [List.takeWhile_cons_of_neg (by simp [hd]), List.takeWhile_cons_of_neg (by simp [hd])]
      · have : x ∈ m := by
          rcases List.mem_cons.1 hm with h | h
          · exact absurd h.symm hd
          · exact h
        rw [List.takeWhile_cons_of_pos (by simp [hd]), List.takeWhile_cons_of_pos (by simp [hd]), ih this]
  simp only [after, List.reverse_cons]
  rw [key _ (by simpa using h)]
end

/-- The square of the length of the last line. -/
def sq (l : List Char) : Nat := after '\n' l * after '\n' l

theorem sq_mono {l' l : List Char} (h : l' <:+ l) : sq l' ≤ sq l := Nat.mul_le_mul (after_suffix h) (after_suffix h)

theorem sq_pay {x c s : List Char} (hc : c <:+ s) (hx : x <:+ s) (hlt : x.length < c.length) : pen c + sq x ≤ sq s := by
  by_cases hp : pen c = 0
  · rw [hp, Nat.zero_add]; exact sq_mono hx
  · have hn := pen_pos hp
    have h1 : c.length ≤ after '\n' s := by rw [← after_none hn]; exact after_suffix hc
    have h2 : after '\n' x ≤ c.length - 1 := by have := after_le (x := '\n') x; omega
    have h3 := pen_le c
    calc pen c + sq x ≤ c.length + (c.length - 1) * c.length := Nat.add_le_add h3 (Nat.mul_le_mul h2 (by omega))
      _ = c.length * c.length := by
        obtain ⟨n, hn⟩ : ∃ n, c.length = n + 1 := ⟨c.length - 1, by omega⟩
        rw [hn, Nat.add_sub_cancel, Nat.add_mul n 1, Nat.one_mul, Nat.add_comm]
      _ ≤ sq s := Nat.mul_le_mul h1 h1

def gRuleItem : PExpr := .seq [g_, .ruleRef .Rule, g_]

theorem fileItem_inv {s r k} (h : Ev gRules (.e gRuleItem) s r k) :
    ∃ k1 k2, k = k1 + k2 ∧ k1 + 4 * (sk s).length ≤ 4 * s.length + 7 + pen (sk s) ∧
      ((∃ x k3 k4, k2 = k3 + k4 ∧ r = some (sk x) ∧ Ev gRules (.e (.ruleRef .Rule)) (sk s) (some x) k3 ∧ k4 + 4 * (sk x).length ≤ 4 * x.length + 6 + pen (sk x) ∧ sk x <:+ x) ∨
       (r = none ∧ Ev gRules (.e (.ruleRef .Rule)) (sk s) none k2)) := by
  obtain ⟨k₁, rfl, h₁⟩ := inv_seqe h
  rcases inv_seq h₁ with ⟨l1, k1, k2, rfl, h1, h₂⟩ | ⟨rfl, h1⟩
  · obtain ⟨e, hk1⟩ := skip0_ev h1
    cases e
    have := sk_le s
    refine ⟨k1 + 1, k2, by omega, by omega, ?_⟩
    rcases inv_seq h₂ with ⟨x, k3, k4, rfl, h2, h₃⟩ | ⟨rfl, h2⟩
    · rcases inv_seq h₃ with ⟨l3, k5, k6, rfl, h3, h₄⟩ | ⟨rfl, h3⟩
      · obtain ⟨rfl, rfl⟩ := inv_seq_nil h₄
        obtain ⟨e, hk3⟩ := skip0_ev h3
        cases e
        have := sk_le x
        exact .inl ⟨x, k3, k5 + 0, rfl, rfl, h2, by omega, ev_suffix h3 _ rfl⟩
      · obtain ⟨e, -⟩ := skip0_ev h3; cases e
    · exact .inr ⟨rfl, h2⟩
  · obtain ⟨e, -⟩ := skip0_ev h1; cases e

/-- Where no rule is, the loop ends. -/
theorem fileLoop_stop {s r k} (hs : sk s = s) (hh : s.head? = some '/' ∨ s.head? = some ':') (h : Ev gRules (.loop gRuleItem) s r k) : k ≤ 103 * s.length + 210 := by
  have bad : ∀ {x k}, ¬ Ev gRules (.e (.ruleRef .Rule)) s (some x) k := by
    intro x k g
    obtain ⟨k', rfl, ⟨a, k1, k2, rfl, hv, -⟩ | ⟨e, -⟩⟩ := rule_inv g
    · have hw : ∀ c t, s = c :: t → ¬ (isWord c = true ∨ c = '(') := by
        intro c t e hc
        rw [e] at hh
        simp only [List.head?_cons, Option.some.injEq] at hh
        rcases hh with rfl | rfl
        · exact absurd hc (by decide)
        · exact absurd hc (by decide)
      rcases val_ev _ _ _ hv with ⟨x, -, -, c, t, hs, hc⟩ | ⟨x, -, -, c, t, hs, hc⟩ | ⟨u, kt, -, -, -, -, c, t, hs, hc⟩ | ⟨e, -⟩ | ⟨e, -⟩
      · exact hw c t hs hc
      · exact hw c t hs (.inl hc)
      · exact hw c t hs (.inl hc)
      · cases e
      · cases e
    · cases e
  rcases inv_loop h with ⟨l', k1, k2, rfl, h1, h2⟩ | ⟨rfl, h1⟩
  · obtain ⟨j1, j2, rfl, hj1, ⟨x, j3, j4, rfl, -, hr, -⟩ | ⟨e, -⟩⟩ := fileItem_inv h1
    · rw [hs] at hr; exact absurd hr bad
    · cases e
  · obtain ⟨j1, j2, rfl, hj1, ⟨x, j3, j4, rfl, e, -⟩ | ⟨-, hr⟩⟩ := fileItem_inv h1
    · cases e
    · rw [hs] at hr hj1
      have := pen_le s
      rcases rule_ev hr with ⟨x, c, e, -⟩ | ⟨x, e, -⟩ | ⟨u, kb, c, e, -⟩ | ⟨-, hk⟩
      · cases e
      · cases e
      · cases e
      · omega

/-- The loop over the rules, after a parenthesis that has been tried as the arguments of a call. -/
theorem fileLoop_ev {s r k kb} (hp : kb = 0 ∨ ∃ u, s = '(' :: u ∧ kb ≤ 100 * u.length + 40 ∧ Ev gRules (.seq gTail) u none kb) (h : Ev gRules (.loop gRuleItem) s r k) :
    k + kb ≤ 250 * s.length + sq s + 700 := by
  induction hn : s.length using Nat.strongRecOn generalizing s r k kb with
  | ind n ih =>
    subst hn
    have hle := sk_le s
    have hpl := pen_le (sk s)
    rcases inv_loop h with ⟨l', k1, k2, rfl, h1, h2⟩ | ⟨rfl, h1⟩
    · have hsuf : l' <:+ s := ev_suffix h1 _ rfl
      obtain ⟨j1, j2, rfl, hj1, ⟨x, j3, j4, rfl, e, hr, hj4, hsx⟩ | ⟨e, -⟩⟩ := fileItem_inv h1
      · cases e
        have hxl : x.length ≤ (sk s).length := ev_len hr _ rfl
        have hlx := sk_le x
        have hpx := pen_le (sk x)
        -- what is paid for the parenthesis
        have hkb : kb + 8 * x.length ≤ 8 * (sk s).length + 120 := by
          rcases hp with rfl | ⟨u, rfl, -, ht⟩
          · omega
          · have hsp : sk ('(' :: u) = '(' :: u := sk_self (by decide) (by decide)
            rw [hsp] at hr
            obtain ⟨z, k', hb, hz⟩ := rule_paren hr
            have := twice hb ht
            rw [hsp]
            simp only [List.length_cons]
            omega
        have hsk : sk s <:+ s := by
          obtain ⟨_, -, g⟩ := inv_seqe h1
          rcases inv_seq g with ⟨l1, i1, i2, -, g1, -⟩ | ⟨e, -⟩
          · obtain ⟨e, -⟩ := skip0_ev g1
            cases e; exact ev_suffix g1 _ rfl
          · cases e
        rcases rule_ev hr with ⟨_, c, e, -, hcs, hlt, hk3, hns⟩ | ⟨y, e, hk3, hns⟩ | ⟨u, kb', c, e, -, hcs, hlt, ht, hkb', hk3, hns⟩ | ⟨e, -⟩
        · cases e
          rw [pen_zero hns] at hj1
          have hpay := sq_pay (hcs.trans hsk) hsuf (by omega)
          have hcl := hcs.length_le
          by_cases hh : (sk x).head? = some '/'
          · have := fileLoop_stop (sk_sk x) (.inl hh) h2
            omega
          · rw [pen_zero hh] at hj4
            have := ih (sk x).length (by omega) (.inl rfl) h2 rfl
            omega
        · cases e
          rw [pen_zero hns] at hj1
          have hsy : sk (':' :: y) = ':' :: y := sk_self (by decide) (by decide)
          rw [hsy] at hj4 h2
          rw [pen_zero (by simp)] at hj4
          have := fileLoop_stop hsy (.inr rfl) h2
          have hyl : y.length + 1 ≤ (sk s).length := hxl
          simp only [List.length_cons] at *
          omega
        · cases e
          rw [pen_zero hns] at hj1
          have hsy : sk ('(' :: u) = '(' :: u := sk_self (by decide) (by decide)
          rw [hsy] at hj4 h2 hsuf
          rw [pen_zero (by simp)] at hj4
          have hcl := hcs.length_le
          have hpay := sq_pay (hcs.trans hsk) hsuf (by simp only [List.length_cons]; omega)
          have := ih ('(' :: u).length (by simp only [List.length_cons]; omega) (.inr ⟨u, rfl, hkb', ht⟩) h2 rfl
          simp only [List.length_cons] at *
          omega
        · cases e
      · cases e
    · obtain ⟨j1, j2, rfl, hj1, ⟨x, j3, j4, rfl, e, -⟩ | ⟨-, hr⟩⟩ := fileItem_inv h1
      · cases e
      · have hkb : kb ≤ 100 * s.length + 40 := by
          rcases hp with rfl | ⟨u, rfl, hk, -⟩
          · omega
          · simp only [List.length_cons]; omega
        rcases rule_ev hr with ⟨x, c, e, -⟩ | ⟨x, e, -⟩ | ⟨u, kb, c, e, -⟩ | ⟨-, hk⟩
        · cases e
        · cases e
        · cases e
        · omega

theorem file_ev {s r k} (h : Ev gRules (.e gFile) s r k) : k ≤ 250 * s.length + sq s + 710 := by
  obtain ⟨k₀, rfl, h₀⟩ := inv_action h
  obtain ⟨k₁, rfl, h₁⟩ := inv_seqe h₀
  rcases inv_seq h₁ with ⟨l1, k1, k2, rfl, h1, h₂⟩ | ⟨rfl, h1⟩
  · obtain ⟨k3, rfl, h1'⟩ := inv_labeled h1
    obtain ⟨_, k4, e, rfl, h1''⟩ := inv_star h1'
    have hl := fileLoop_ev (.inl rfl) h1''
    have hn : ∀ {r k}, Ev gRules (.e (.not .any)) l1 r k → k = 2 := by
      intro r k g
      obtain ⟨k', rfl, ⟨_, -, g'⟩ | ⟨-, g'⟩⟩ := inv_not g
      · obtain ⟨rfl, -⟩ := inv_any g'; rfl
      · obtain ⟨rfl, -⟩ := inv_any g'; rfl
    have : k2 = 2 := by
      rcases inv_seq h₂ with ⟨l2, k5, k6, rfl, h2, h₃⟩ | ⟨rfl, h2⟩
      · obtain ⟨-, rfl⟩ := inv_seq_nil h₃
        rw [hn h2]
      · exact hn h2
    omega
  · obtain ⟨k3, rfl, h1'⟩ := inv_labeled h1
    obtain ⟨_, k4, e, -⟩ := inv_star h1'
    cases e

/-! ## From bytes to characters -/

theorem decodeRune_nl {b0 : UInt8} {bs : List UInt8} (h : (10 : UInt8) ∈ bs) : (10 : UInt8) ∈ (decodeRune b0 bs).2 := by
  have nc : ∀ {b : UInt8}, isCont b = true → b ≠ 10 := by
    intro b hb e; subst e; exact absurd hb (by decide)
  unfold decodeRune
  simp only []
  by_cases h1 : b0.toNat < 0x80
  · rw [if_pos h1]; exact h
  rw [if_neg h1]
  split
  · split
    · split
      · rename_i hc
        rcases List.mem_cons.1 h with e | h
        · exact absurd e.symm (nc hc)
        · exact h
      · exact h
    · exact h
  · split
    · split
      · split
        · rename_i hc
          rcases List.mem_cons.1 h with e | h
          · exact absurd e.symm (nc hc.1)
          · rcases List.mem_cons.1 h with e | h
            · exact absurd e.symm (nc hc.2.1)
            · exact h
        · exact h
      · exact h
    · split
      · split
        · split
          · rename_i hc
            rcases List.mem_cons.1 h with e | h
            · exact absurd e.symm (nc hc.1)
            · rcases List.mem_cons.1 h with e | h
              · exact absurd e.symm (nc hc.2.1)
              · rcases List.mem_cons.1 h with e | h
                · exact absurd e.symm (nc hc.2.2.1)
                · exact h
          · exact h
        · exact h
      · exact h

theorem decode_cons (b0 : UInt8) (bs : List UInt8) : decode (b0 :: bs) = (decodeRune b0 bs).1 :: decode (decodeRune b0 bs).2 := by rw [decode]

theorem mem_decode {bs : List UInt8} (h : (10 : UInt8) ∈ bs) : '\n' ∈ (decode bs).map Sym.rune := by
  induction hn : bs.length using Nat.strongRecOn generalizing bs with
  | ind n ih =>
    subst hn
    cases bs with
    | nil => cases h
    | cons b0 bs =>
      rw [decode_cons, List.map_cons]
      rcases List.mem_cons.1 h with e | h
      · subst e; exact List.mem_cons.2 (.inl (rfl))
      · have := decodeRune_length b0 bs
        exact List.mem_cons_of_mem _ (ih _ (by simp only [List.length_cons]; omega) (decodeRune_nl h) rfl)

theorem decodeRune_suffix (b0 : UInt8) (bs : List UInt8) : (decodeRune b0 bs).2 <:+ bs := by
  unfold decodeRune
  simp only []
  by_cases h1 : b0.toNat < 0x80
  · rw [if_pos h1]; exact List.suffix_refl _
  rw [if_neg h1]
  repeat' split
  all_goals first
    | exact List.suffix_refl _
    | exact List.suffix_cons _ _
    | exact (List.suffix_cons _ _).trans (List.suffix_cons _ _)
    | exact (List.suffix_cons _ _).trans ((List.suffix_cons _ _).trans (List.suffix_cons _ _))

theorem after_decode (bs : List UInt8) : after '\n' ((decode bs).map Sym.rune) ≤ after 10 bs := by
  induction hn : bs.length using Nat.strongRecOn generalizing bs with
  | ind n ih =>
    subst hn
    by_cases hm : (10 : UInt8) ∈ bs
    · cases bs with
      | nil => cases hm
      | cons b0 bs =>
        rw [decode_cons, List.map_cons]
        have hl := decodeRune_length b0 bs
        by_cases hb : (10 : UInt8) ∈ bs
        · rw [after_cons (mem_decode (decodeRune_nl hb))]
          have h1 := ih (decodeRune b0 bs).2.length (by simp only [List.length_cons]; omega) (decodeRune b0 bs).2 rfl
          have h2 := after_suffix (x := (10 : UInt8)) ((decodeRune_suffix b0 bs).trans (List.suffix_cons b0 bs))
          omega
        · have e : b0 = 10 := by
            rcases List.mem_cons.1 hm with e | h
            · exact e.symm
            · exact absurd h hb
          subst e
          have e1 : decodeRune 10 bs = (.ok '\n', bs) := rfl
          rw [e1]
          have h2 : after (10 : UInt8) (10 :: bs) = bs.length := by
            have : after (10 : UInt8) (10 :: bs) ≥ after 10 bs := after_suffix (List.suffix_cons _ _)
            rw [after_none hb] at this
            have h3 : after (10 : UInt8) (10 :: bs) ≤ bs.length := by
              simp only [after, List.reverse_cons]
              have key : ∀ (m : List UInt8), ((m ++ [10]).takeWhile (fun y => decide (y ≠ 10))).length ≤ m.length := by
                intro m
                induction m with
                | nil => simp
                | cons d m ih =>
                  simp only [List.cons_append, List.takeWhile_cons]
                  split
                  · simp only [List.length_cons]; omega
                  · simp
              simpa using key bs.reverse
            omega
          have h4 : after '\n' (Sym.rune (.ok '\n') :: (decode bs).map Sym.rune) ≤ ((decode bs).map Sym.rune).length := by
            simp only [after, List.reverse_cons]
            have key : ∀ (m : List Char), ((m ++ ['\n']).takeWhile (fun y => decide (y ≠ '\n'))).length ≤ m.length := by
              intro m
              induction m with
              | nil => simp
              | cons d m ih =>
                simp only [List.cons_append, List.takeWhile_cons]
                split
                · simp only [List.length_cons]; omega
                · simp
            have := key ((decode bs).map Sym.rune).reverse
            rw [List.length_reverse] at this
            exact this
          have h5 : ((decode bs).map Sym.rune).length ≤ bs.length := by rw [List.length_map]; exact decode_length bs
          rw [h2]
          exact Nat.le_trans h4 h5
    · rw [after_none hm]
      have h1 := after_le (x := '\n') ((decode bs).map Sym.rune)
      have h2 := decode_length bs
      rw [List.length_map] at h1
      omega

theorem exprCnt_le (lib : GoLib) (bs : List UInt8) : exprCnt lib bs ≤ 250 * bs.length + after 10 bs * after 10 bs + 710 := by
  obtain ⟨r, k, h, hk⟩ := exprCnt_ev lib bs
  have h1 := file_ev h
  have h2 := decode_length bs
  rw [List.length_map] at h1
  have h3 : sq ((decode bs).map Sym.rune) ≤ after 10 bs * after 10 bs := Nat.mul_le_mul (after_decode bs) (after_decode bs)
  omega

end Verif.Proof.Count

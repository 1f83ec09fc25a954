import Verif.Proof.GoLex
/-!
# The reference Go scanner: every name and literal it yields is a single token by itself and comes from the text
-/
namespace Verif.Proof
open Verif Verif.Spec

theorem headIs_prefix {p : Char → Prop} {t s : Str} (h : t <+: s) (hs : HeadIs p s) : HeadIs p t := by
  intro c r e
  obtain ⟨z, rfl⟩ := h
  exact hs c (r ++ z) (by rw [e]; rfl)

theorem spanOf_head (p : Char → Bool) : ∀ s : Str, HeadIs (fun c => p c = false) (spanOf p s).2
  | [] => headIs_nil
  | c :: s => by
    cases hc : p c with
    | true => simpa [spanOf, List.dropWhile, hc] using spanOf_head p s
    | false => simp [spanOf, List.dropWhile, hc, headIs_cons]

theorem spanOf_again {p : Char → Bool} {s t : Str} (h : t <+: (spanOf p s).2) : spanOf p ((spanOf p s).1 ++ t) = ((spanOf p s).1, t) := by
  have ht := headIs_prefix h (spanOf_head p s)
  rw [spanOf_stop ht]
  have : ∀ s : Str, spanOf p (spanOf p s).1 = ((spanOf p s).1, []) := by
    intro s
    induction s with
    | nil => rfl
    | cons c s ih =>
      cases hc : p c with
      | true =>
        simp only [spanOf, List.takeWhile, List.dropWhile, hc, Prod.mk.injEq] at ih ⊢
        exact ⟨by rw [ih.1], ih.2⟩
      | false => simp [spanOf, List.takeWhile, List.dropWhile, hc]
  rw [this]; rfl

theorem fracOf_dot (hex : Bool) (s : Str) : fracOf hex ('.' :: s) = ('.' :: (spanOf (digits hex) s).1, (spanOf (digits hex) s).2) := rfl
theorem fracOf_none {hex : Bool} {s : Str} (h : HeadIs (· ≠ '.') s) : fracOf hex s = ([], s) := by
  unfold fracOf; split
  · exact absurd rfl (headIs_cons.1 h)
  · rfl
theorem expOf_exp {c s} (h : isExpChar c = true) : expOf (c :: s) =
    (c :: (signOf s).1 ++ (spanOf (digits false) (signOf s).2).1, (spanOf (digits false) (signOf s).2).2) := by
  simp [expOf, h]
theorem expOf_none {s : Str} (h : HeadIs (fun c => isExpChar c = false) s) : expOf s = ([], s) := by
  cases s with
  | nil => rfl
  | cons c s => simp [expOf, headIs_cons.1 h]

theorem fracOf_again {hex : Bool} {s t : Str} (h : t <+: (fracOf hex s).2) : fracOf hex ((fracOf hex s).1 ++ t) = ((fracOf hex s).1, t) := by
  by_cases hs : HeadIs (· ≠ '.') s
  · rw [fracOf_none hs] at h ⊢
    exact fracOf_none (headIs_prefix h hs)
  · cases s with
    | nil => exact absurd headIs_nil hs
    | cons c s =>
      have hc : c = '.' := by
        by_cases hc : c = '.'
        · exact hc
        · exact absurd (headIs_cons.2 hc) hs
      subst hc
      rw [fracOf_dot] at h ⊢
      rw [List.cons_append, fracOf_dot, spanOf_again h]

theorem signOf_none {s : Str} (h : HeadIs (fun c => c ≠ '+' ∧ c ≠ '-') s) : signOf s = ([], s) := by
  unfold signOf; split
  · exact absurd rfl (headIs_cons.1 h).1
  · exact absurd rfl (headIs_cons.1 h).2
  · rfl

theorem signOf_again {s t : Str} (h : t <+: (signOf s).2) : signOf ((signOf s).1 ++ t) = ((signOf s).1, t) := by
  cases s with
  | nil => obtain ⟨z, hz⟩ := h; simp [signOf] at hz; simp [signOf, hz.1]
  | cons c s =>
    by_cases h1 : c = '+'
    · subst h1; rfl
    by_cases h2 : c = '-'
    · subst h2; rfl
    have hh : HeadIs (fun c => c ≠ '+' ∧ c ≠ '-') (c :: s) := headIs_cons.2 ⟨h1, h2⟩
    rw [signOf_none hh] at h ⊢
    exact signOf_none (headIs_prefix h hh)

theorem expOf_again {s t : Str} (h : t <+: (expOf s).2) : expOf ((expOf s).1 ++ t) = ((expOf s).1, t) := by
  by_cases hs : HeadIs (fun c => isExpChar c = false) s
  · rw [expOf_none hs] at h ⊢
    exact expOf_none (headIs_prefix h hs)
  · cases s with
    | nil => exact absurd headIs_nil hs
    | cons c s =>
      have hc : isExpChar c = true := by
        cases hc : isExpChar c with
        | true => rfl
        | false => exact absurd (headIs_cons.2 hc) hs
      rw [expOf_exp hc] at h ⊢
      have e := spanOf_again h
      have hp : (spanOf (digits false) (signOf s).2).1 ++ t <+: (signOf s).2 := by
        obtain ⟨z, hz⟩ := h
        refine ⟨z, ?_⟩
        rw [List.append_assoc, hz, spanOf_text]
      have e2 := signOf_again hp
      simp only [List.cons_append, List.append_assoc] at e2 ⊢
      rw [expOf_exp hc, e2]
      simp only [e]
      simp

theorem sufOf_again (s : Str) : sufOf (sufOf s).1 = ((sufOf s).1, []) := by
  generalize h : sufOf s = z
  unfold sufOf at h
  split at h <;> subst h <;> rfl
theorem sufOf_text (t : Str) : (sufOf t).1 ++ (sufOf t).2 = t := by unfold sufOf; split <;> rfl
theorem fracOf_text (hex : Bool) (t : Str) : (fracOf hex t).1 ++ (fracOf hex t).2 = t := by
  unfold fracOf; split
  · simp [spanOf, List.takeWhile_append_dropWhile]
  · rfl

theorem numPrefix_again {s t : Str} (h : t <+: s.drop (numPrefix s).1.length) : numPrefix ((numPrefix s).1 ++ t) = numPrefix s := by
  unfold numPrefix at h ⊢
  split at h <;> try rfl
  rename_i n1 n2 n3 n4 n5 n6
  simp only [List.length_nil, List.drop_zero] at h
  obtain ⟨z, rfl⟩ := h
  simp only [List.nil_append]
  split
  · exact absurd rfl (n1 _)
  · exact absurd rfl (n2 _)
  · exact absurd rfl (n3 _)
  · exact absurd rfl (n4 _)
  · exact absurd rfl (n5 _)
  · exact absurd rfl (n6 _)
  · rfl

theorem numParts_again (s : Str) : numParts (numParts s).text = { numParts s with rest := [] } := by
  generalize hp : numPrefix s = p
  generalize ha : spanOf (digits p.2) (s.drop p.1.length) = a
  generalize hb : fracOf p.2 a.2 = b
  generalize hc : expOf b.2 = c
  generalize hsu : sufOf c.2 = d
  have hn : numParts s = { pre := p.1, hex := p.2, int := a.1, frac := b.1, exp := c.1, suf := d.1, rest := d.2 } := by
    unfold numParts; simp only [hp, ha, hb, hc, hsu]
  have hsuf : d.1 ++ d.2 = c.2 := by rw [← hsu]; exact sufOf_text _
  have hexp : c.1 ++ c.2 = b.2 := by
    rw [← hc]
    by_cases hh : HeadIs (fun c => isExpChar c = false) b.2
    · rw [expOf_none hh]; rfl
    · revert hh
      cases b.2 with
      | nil => intro hh; exact absurd headIs_nil hh
      | cons x s =>
        intro hh
        have hx : isExpChar x = true := by
          cases hx : isExpChar x with
          | true => rfl
          | false => exact absurd (headIs_cons.2 hx) hh
        rw [expOf_exp hx]
        have : (signOf s).1 ++ (signOf s).2 = s := by unfold signOf; split <;> rfl
        simp only [List.cons_append, List.append_assoc, spanOf_text, this]
  have hfrac : b.1 ++ b.2 = a.2 := by rw [← hb]; exact fracOf_text _ _
  have hint : a.1 ++ a.2 = s.drop p.1.length := by rw [← ha, spanOf_text]
  have p3 : d.1 <+: c.2 := ⟨d.2, hsuf⟩
  have p2 : c.1 ++ d.1 <+: b.2 := ⟨d.2, by rw [List.append_assoc, hsuf, hexp]⟩
  have p1 : b.1 ++ (c.1 ++ d.1) <+: a.2 := ⟨d.2, by simp only [List.append_assoc]; rw [hsuf, hexp, hfrac]⟩
  have p0 : a.1 ++ (b.1 ++ (c.1 ++ d.1)) <+: s.drop p.1.length := ⟨d.2, by simp only [List.append_assoc]; rw [hsuf, hexp, hfrac, hint]⟩
  have e0 : numPrefix (p.1 ++ (a.1 ++ (b.1 ++ (c.1 ++ d.1)))) = p := by
    have := numPrefix_again (s := s) (by rw [hp]; exact p0)
    rwa [hp] at this
  have e1 : spanOf (digits p.2) (a.1 ++ (b.1 ++ (c.1 ++ d.1))) = (a.1, b.1 ++ (c.1 ++ d.1)) := by
    have := spanOf_again (p := digits p.2) (s := s.drop p.1.length) (t := b.1 ++ (c.1 ++ d.1)) (by rw [ha]; exact p1)
    rwa [ha] at this
  have e2 : fracOf p.2 (b.1 ++ (c.1 ++ d.1)) = (b.1, c.1 ++ d.1) := by
    have := fracOf_again (hex := p.2) (s := a.2) (t := c.1 ++ d.1) (by rw [hb]; exact p2)
    rwa [hb] at this
  have e3 : expOf (c.1 ++ d.1) = (c.1, d.1) := by
    have := expOf_again (s := b.2) (t := d.1) (by rw [hc]; exact p3)
    rwa [hc] at this
  have e4 : sufOf d.1 = (d.1, []) := by
    have := sufOf_again c.2
    rwa [hsu] at this
  rw [hn]
  simp only [NumParts.text, List.append_assoc]
  unfold numParts
  simp only [e0, List.drop_left, e1, e2, e3, e4]

theorem number_again {s kd v r} (h : number s = some (.lit kd v, r)) : number v = some (.lit kd v, []) := by
  obtain ⟨kd', h1, h2, h3⟩ := number_lit h
  simp only [GTok.lit.injEq] at h1
  obtain ⟨rfl, rfl⟩ := h1
  unfold number
  rw [numParts_again]
  have : ({ numParts s with rest := [] } : NumParts).kind = some kd := h3
  rw [this]
  rfl

theorem quoted_again {q : Char} : ∀ {s : Str} {st n t r}, quoted q st s = some (n, t, r) → quoted q st t = some (n, t, []) ∧ s = t ++ r
  | [], st, n, t, r, h => by simp [quoted] at h
  | c :: s, st, n, t, r, h => by
    unfold quoted at h
    by_cases hc : (c = q && st.isBody) = true
    · rw [if_pos hc] at h
      simp only [Option.some.injEq, Prod.mk.injEq] at h
      obtain ⟨rfl, rfl, rfl⟩ := h
      unfold quoted
      rw [if_pos hc]
      exact ⟨rfl, rfl⟩
    · rw [if_neg hc] at h
      cases hq : qStep q st c with
      | none => rw [hq] at h; simp at h
      | some st' =>
        rw [hq] at h
        simp only at h
        cases hrec : quoted q st' s with
        | none => rw [hrec] at h; simp at h
        | some z =>
          obtain ⟨m, t', r'⟩ := z
          rw [hrec] at h
          simp only [Option.map_some, Option.some.injEq, Prod.mk.injEq] at h
          obtain ⟨rfl, rfl, rfl⟩ := h
          obtain ⟨i1, i2⟩ := quoted_again hrec
          refine ⟨?_, by rw [i2]; rfl⟩
          unfold quoted
          rw [if_neg hc, hq]
          simp only [i1, Option.map_some]

theorem rawBody_cons {c : Char} {s : Str} (h : c ≠ '`') : rawBody (c :: s) = (rawBody s).map fun (t, r) => (c :: t, r) := by
  rw [rawBody]; simpa using h

theorem rawBody_again : ∀ {s : Str} {t r}, rawBody s = some (t, r) →
    rawBody (t.filter (· != '\r')) = some (t.filter (· != '\r'), []) ∧ s = t ++ r
  | [], t, r, h => by simp [rawBody] at h
  | c :: s, t, r, h => by
    by_cases hc : c = '`'
    · subst hc
      simp only [rawBody, Option.some.injEq, Prod.mk.injEq] at h
      obtain ⟨rfl, rfl⟩ := h
      exact ⟨by simp [rawBody], rfl⟩
    · rw [rawBody_cons hc] at h
      cases hrec : rawBody s with
      | none => rw [hrec] at h; simp at h
      | some z =>
        obtain ⟨t', r'⟩ := z
        rw [hrec] at h
        simp only [Option.map_some, Option.some.injEq, Prod.mk.injEq] at h
        obtain ⟨rfl, rfl⟩ := h
        obtain ⟨i1, i2⟩ := rawBody_again hrec
        refine ⟨?_, by rw [i2]; rfl⟩
        by_cases hr : c = '\r'
        · subst hr
          simpa using i1
        · have : (c :: t').filter (· != '\r') = c :: t'.filter (· != '\r') := by simp [hr]
          rw [this, rawBody_cons hc, i1]; rfl

theorem filter_filter_cr (t : Str) : (t.filter (· != '\r')).filter (· != '\r') = t.filter (· != '\r') := by
  simp [List.filter_filter]

theorem numStart_text {c : Char} {s : Str} {kd} (hn : numStart c s = true) (hk : (numParts (c :: s)).kind = some kd) :
    ∃ s', (numParts (c :: s)).text = c :: s' ∧ numStart c s' = true := by
  have ht := numParts_text (c :: s)
  cases htx : (numParts (c :: s)).text with
  | nil =>
    -- a number with empty text has no digits
    exfalso
    simp only [NumParts.text, List.append_eq_nil_iff] at htx
    have : (numParts (c :: s)).kind = none := by
      unfold NumParts.kind
      simp [htx.1.1.1.2, htx.1.1.2]
    rw [this] at hk; simp at hk
  | cons c' s' =>
    rw [htx] at ht
    simp only [List.cons_append, List.cons.injEq] at ht
    obtain ⟨rfl, ht⟩ := ht
    refine ⟨s', rfl, ?_⟩
    cases hd : isDec c' with
    | true => simp [numStart, hd]
    | false =>
      simp only [numStart, hd, Bool.false_or, Bool.and_eq_true, beq_iff_eq] at hn ⊢
      refine ⟨hn.1, ?_⟩
      cases s' with
      | nil =>
        exfalso
        -- the text is a lone point
        have ha := numParts_again (c' :: s)
        rw [htx] at ha
        have hc : c' = '.' := hn.1
        subst hc
        have e : numParts ['.'] = { pre := [], hex := false, int := [], frac := ['.'], exp := [], suf := [], rest := [] } := by rfl
        have hk2 : ({ numParts ('.' :: s) with rest := [] } : NumParts).kind = some kd := hk
        rw [← ha, e] at hk2
        revert hk2
        simp [NumParts.kind, isDec]
      | cons d s'' =>
        rw [← ht] at hn
        exact hn.2

theorem lexTok_again {u : GoVersion} {c s k r} (h : lexTok u (c :: s) = some (k, r)) (hw : isWord k = true) :
    lexTok u (tokText k) = some (k, []) ∧ ∃ w, c :: s = w ++ r ∧ (tokText k = w ∨ tokText k = w.filter (· != '\r')) := by
  cases lexTok_word h hw with
  | ident w hc hsw hk e =>
    subst e
    have hw1 : spanOf (fun c => isGoLetter u c || isGoDigit u c) w = (w, []) := by
      have := spanOf_again (p := fun c => isGoLetter u c || isGoDigit u c) (s := c :: s) (t := []) List.nil_prefix
      rw [hsw] at this
      simpa using this
    have hsp := spanOf_text (fun c => isGoLetter u c || isGoDigit u c) (c :: s)
    rw [hsw] at hsp
    refine ⟨?_, w, hsp.symm, .inl rfl⟩
    cases w with
    | nil => simp [spanOf, List.takeWhile, hc] at hsw
    | cons c' w' =>
      simp only [List.cons_append, List.cons.injEq] at hsp
      obtain ⟨rfl, -⟩ := hsp
      exact lexTok_ident hc hw1 hk
  | num kd hc hn hs e =>
    subst e
    obtain ⟨kd', h1, h2, h3⟩ := number_lit hs
    have ht := numParts_text (c :: s)
    obtain ⟨s', hs', hn'⟩ := numStart_text hn h3
    refine ⟨?_, _, (by rw [h2]; exact ht.symm), .inl rfl⟩
    have := number_again hs
    show lexTok u (numParts (c :: s)).text = _
    rw [hs'] at this ⊢
    rw [lexTok_num hc hn']
    exact this
  | str n t hc hq e =>
    subst e hc
    obtain ⟨i1, i2⟩ := quoted_again hq
    exact ⟨lexTok_str i1, '"' :: t, by rw [i2]; rfl, .inl rfl⟩
  | chr t hc hq e =>
    subst e hc
    obtain ⟨i1, i2⟩ := quoted_again hq
    exact ⟨lexTok_chr i1, '\'' :: t, by rw [i2]; rfl, .inl rfl⟩
  | raw t hc hq e =>
    subst e hc
    obtain ⟨i1, i2⟩ := rawBody_again hq
    refine ⟨?_, '`' :: t, by rw [i2]; rfl, .inr (by simp [tokText])⟩
    have := lexTok_raw (u := u) i1
    rw [filter_filter_cr] at this
    exact this

/-- Some text is left out at the front. -/
theorem lexTok_rest {u : GoVersion} {s k r} (h : lexTok u s = some (k, r)) : ∃ w, w ≠ [] ∧ s = w ++ r := by
  cases s with
  | nil => simp [lexTok] at h
  | cons c s =>
    by_cases hw : isWord k = true
    · obtain ⟨h1, w, h2, h3⟩ := lexTok_again h hw
      refine ⟨w, ?_, h2⟩
      rintro rfl
      have h3 : tokText k = [] := by rcases h3 with h3 | h3 <;> exact h3
      rw [h3] at h1; simp [lexTok] at h1
    · rw [lexTok_eq] at h
      split at h
      · rename_i hc
        simp only [Option.some.injEq, Prod.mk.injEq] at h
        refine ⟨_, ?_, by rw [← h.2]; exact (spanOf_text _ _).symm⟩
        simp [spanOf, List.takeWhile, hc]
      split at h
      · obtain ⟨kd, h1, -⟩ := number_lit h
        rw [h1] at hw; simp [isWord] at hw
      split at h
      · cases hb : quoted '"' .body s with
        | none => rw [hb] at h; simp at h
        | some z =>
          rw [hb] at h
          simp only [Option.map_some, Option.some.injEq, Prod.mk.injEq] at h
          rw [← h.1] at hw; simp [isWord] at hw
      split at h
      · split at h
        · simp only [Option.some.injEq, Prod.mk.injEq] at h
          rw [← h.1] at hw; simp [isWord] at hw
        · simp at h
      split at h
      · cases hb : rawBody s with
        | none => rw [hb] at h; simp at h
        | some z =>
          rw [hb] at h
          simp only [Option.map_some, Option.some.injEq, Prod.mk.injEq] at h
          rw [← h.1] at hw; simp [isWord] at hw
      · unfold operator at h
        split at h
        · split at h
          · simp only [Option.some.injEq, Prod.mk.injEq] at h
            rename_i r' e _
            refine ⟨['~'], by simp, ?_⟩
            rw [e, ← h.2]; rfl
          · simp at h
        · split at h
          · rename_i w k' hf
            have hm := List.mem_of_find?_eq_some hf
            have hp := List.find?_some hf
            have hne : operators.all (fun o => !o.1.isEmpty) = true := by decide +kernel
            have hne := List.all_eq_true.1 hne _ hm
            simp only [Option.some.injEq, Prod.mk.injEq] at h
            refine ⟨w, by simpa using hne, ?_⟩
            rw [← h.2]
            have := List.isPrefixOf_iff_prefix.1 hp
            obtain ⟨z, hz⟩ := this
            rw [← hz]; simp
          · simp at h

theorem closeComment_suffix : ∀ {s b r}, closeComment s = some (b, r) → ∃ w, s = w ++ r
  | [], b, r, h => by simp [closeComment] at h
  | c :: s, b, r, h => by
    unfold closeComment at h
    split at h
    · rename_i e; simp only [Option.some.injEq, Prod.mk.injEq] at h; exact ⟨['*', '/'], by rw [e, h.2]; rfl⟩
    · rename_i c' s' _ e
      simp only [List.cons.injEq] at e
      obtain ⟨rfl, rfl⟩ := e
      cases hrec : closeComment s with
      | none => rw [hrec] at h; simp at h
      | some z =>
        obtain ⟨b', r'⟩ := z
        rw [hrec] at h
        simp only [Option.map_some, Option.some.injEq, Prod.mk.injEq] at h
        obtain ⟨w, hw⟩ := closeComment_suffix hrec
        exact ⟨c :: w, by rw [hw, h.2]; rfl⟩
    · simp at h

/-- The token comes from the text: it is a stretch of it, with carriage returns left out in raw strings. -/
def WordIn (u : GoVersion) (s : Str) (k : GTok) : Prop :=
  isWord k = true → lexTok u (tokText k) = some (k, []) ∧ ∃ pre w post, s = pre ++ w ++ post ∧ (tokText k = w ∨ tokText k = w.filter (· != '\r'))

theorem WordIn.mono {u s k} (h : WordIn u s k) (w : Str) : WordIn u (w ++ s) k := by
  intro hk
  obtain ⟨h1, pre, w', post, h2, h3⟩ := h hk
  exact ⟨h1, w ++ pre, w', post, by rw [h2]; simp, h3⟩

theorem lexGo_cons (u : GoVersion) (n : Nat) (nl : Bool) (c : Char) (s : Str) : lexGo u (n + 1) nl (c :: s) =
    if c = '\n' then if nl then (lexGo u n false s).map (.semi :: ·) else lexGo u n false s
    else if c = ' ' ∨ c = '\t' ∨ c = '\r' then lexGo u n nl s
    else
      match c, s with
      | '/', '/' :: s => lexGo u n nl (s.dropWhile (· != '\n'))
      | '/', '*' :: s =>
        match closeComment s with
        | none => none
        | some (b, s) => if b && nl then (lexGo u n false s).map (.semi :: ·) else lexGo u n nl s
      | c, s =>
        match lexTok u (c :: s) with
        | none => none
        | some (k, r) => (lexGo u n (endsLine k) r).map (k :: ·) := rfl

theorem lexGo_words {u : GoVersion} : ∀ {n nl s ts}, lexGo u n nl s = some ts → ∀ k ∈ ts, WordIn u s k
  | 0, nl, s, ts, h => by simp [lexGo] at h
  | n + 1, nl, [], ts, h => by
    simp only [lexGo, Option.some.injEq] at h
    subst h; simp
  | n + 1, nl, c :: s, ts, h => by
    have semi : ∀ {s' ts'}, (lexGo u n false s').map (GTok.semi :: ·) = some ts' → (∃ w, c :: s = w ++ s') → ∀ k ∈ ts', WordIn u (c :: s) k := by
      rintro s' ts' h ⟨w, hw⟩ k hk
      cases hr : lexGo u n false s' with
      | none => rw [hr] at h; simp at h
      | some ts0 =>
        rw [hr] at h
        simp only [Option.map_some, Option.some.injEq] at h
        subst h
        rcases List.mem_cons.1 hk with rfl | hk
        · intro hh; simp [isWord] at hh
        · rw [hw]; exact (lexGo_words hr k hk).mono w
    have plain : ∀ {nl s' ts'}, lexGo u n nl s' = some ts' → (∃ w, c :: s = w ++ s') → ∀ k ∈ ts', WordIn u (c :: s) k := by
      rintro nl s' ts' h ⟨w, hw⟩ k hk
      rw [hw]; exact (lexGo_words h k hk).mono w
    rw [lexGo_cons] at h
    split at h
    · split at h
      · exact semi h ⟨[c], rfl⟩
      · exact plain h ⟨[c], rfl⟩
    split at h
    · exact plain h ⟨[c], rfl⟩
    split at h
    · rename_i s' _ _
      refine plain h ⟨'/' :: '/' :: s'.takeWhile (· != '\n'), ?_⟩
      simp [List.takeWhile_append_dropWhile]
    · split at h
      · simp at h
      · rename_i s' b s'' hc
        obtain ⟨w, hw⟩ := closeComment_suffix hc
        split at h
        · exact semi h ⟨'/' :: '*' :: w, by rw [hw]; rfl⟩
        · exact plain h ⟨'/' :: '*' :: w, by rw [hw]; rfl⟩
    · split at h
      · simp at h
      · rename_i k r hl
        cases hr : lexGo u n (endsLine k) r with
        | none => rw [hr] at h; simp at h
        | some ts0 =>
          rw [hr] at h
          simp only [Option.map_some, Option.some.injEq] at h
          subst h
          intro k' hk
          rcases List.mem_cons.1 hk with rfl | hk
          · intro hh
            obtain ⟨h1, w, h2, h3⟩ := lexTok_again hl hh
            exact ⟨h1, [], w, r, by simpa using h2, h3⟩
          · obtain ⟨w, -, hw⟩ := lexTok_rest hl
            rw [hw]; exact (lexGo_words hr k' hk).mono w

theorem noMarks_some {t t'} (h : noMarks t = some t') : (∃ w, t = w ++ t') ∧ '\x00' ∉ t' ∧ '\uFEFF' ∉ t' := by
  have key : ∀ t0 : Str, (if t0.any (fun c => c == '\x00' || c == '\uFEFF') then none else some t0) = some t' → t0 = t' ∧ '\x00' ∉ t' ∧ '\uFEFF' ∉ t' := by
    intro t0 h
    split at h
    · simp at h
    · rename_i hm
      simp only [Option.some.injEq] at h
      subst h
      simp only [List.any_eq_true, Bool.or_eq_true, beq_iff_eq, not_exists, not_and, not_or] at hm
      exact ⟨rfl, fun hc => (hm _ hc).1 rfl, fun hc => (hm _ hc).2 rfl⟩
  unfold noMarks at h
  split at h
  · obtain ⟨rfl, h'⟩ := key _ h
    exact ⟨⟨['\uFEFF'], rfl⟩, h'⟩
  · obtain ⟨rfl, h'⟩ := key _ h
    exact ⟨⟨[], rfl⟩, h'⟩

theorem lexAll_words {u : GoVersion} {t ts} (h : lexAll u t = some ts) : ∀ k ∈ ts, WordIn u t k ∧ (isWord k = true → OneTok u (tokText k) k) := by
  unfold lexAll at h
  cases hn : noMarks t with
  | none => rw [hn] at h; simp at h
  | some t' =>
    rw [hn] at h
    simp only [Option.bind_some] at h
    obtain ⟨⟨w, hw⟩, m1, m2⟩ := noMarks_some hn
    intro k hk
    have hkw := lexGo_words h k hk
    refine ⟨hw ▸ hkw.mono w, fun hh => ?_⟩
    obtain ⟨h1, pre, v, post, h2, h3⟩ := hkw hh
    have : ∀ c ∈ tokText k, c ∈ t' := by
      intro c hc
      have hv : c ∈ v := by
        rcases h3 with h3 | h3
        · rwa [h3] at hc
        · rw [h3] at hc; exact (List.mem_filter.1 hc).1
      rw [h2]; simp [hv]
    exact ⟨h1, fun hc => m1 (this _ hc), fun hc => m2 (this _ hc)⟩

end Verif.Proof

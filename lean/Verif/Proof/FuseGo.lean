import Verif.Proof.GoShow
/-!
# A printed expression that is read back has no fused tokens

What is read contains every token of the tree, so there are at least as many characters in the text (blanks aside) as in the printed form.
-/
namespace Verif.Proof
open Verif Verif.Spec

/-- Characters that are not blank. -/
def nbc (s : Str) : Nat := (s.filter fun c => !isBlank c).length

@[simp] theorem nbc_nil : nbc [] = 0 := rfl
@[simp] theorem nbc_append (a b : Str) : nbc (a ++ b) = nbc a + nbc b := by simp [nbc]
theorem nbc_cons (c : Char) (s : Str) : nbc (c :: s) = nbc [c] + nbc s := nbc_append [c] s
theorem nbc_blank {c : Char} (h : isBlank c = true) : nbc [c] = 0 := by simp [nbc, h]
theorem nbc_one {c : Char} (h : isBlank c = false) : nbc [c] = 1 := by simp [nbc, h]
theorem nbc_cons_blank {c : Char} (s : Str) (h : isBlank c = true) : nbc (c :: s) = nbc s := by rw [nbc_cons, nbc_blank h]; omega
theorem nbc_cons_one {c : Char} (s : Str) (h : isBlank c = false) : nbc (c :: s) = nbc s + 1 := by rw [nbc_cons, nbc_one h]; omega

theorem nbc_cr (w : Str) : nbc (w.filter (· != '\r')) = nbc w := by
  induction w with
  | nil => rfl
  | cons c w ih =>
    rw [List.filter_cons]
    split
    · rw [nbc_cons, ih, ← nbc_cons]
    · rename_i h
      have : c = '\r' := by simpa using h
      subst this
      rw [nbc_cons_blank _ (by decide), ih]

/-- Characters of tokens, blanks aside. -/
def tnbc : List GTok → Nat
  | [] => 0
  | k :: ts => nbc (tokText k) + tnbc ts

@[simp] theorem tnbc_append (a b : List GTok) : tnbc (a ++ b) = tnbc a + tnbc b := by
  induction a with
  | nil => simp [tnbc]
  | cons k a ih => simp only [List.cons_append, tnbc, ih]; omega

/-- `a` is `b` without some commas and dots. -/
inductive Drops : List GTok → List GTok → Prop
  | nil : Drops [] []
  | keep (k : GTok) {a b} : Drops a b → Drops (k :: a) (k :: b)
  | drop (k : GTok) {a b} (hk : k = .comma ∨ k = .ellipsis) : Drops a b → Drops a (k :: b)

theorem Drops.refl : ∀ a : List GTok, Drops a a
  | [] => .nil
  | k :: a => .keep k (.refl a)

theorem Drops.append {a b c d : List GTok} (h : Drops a b) (h' : Drops c d) : Drops (a ++ c) (b ++ d) := by
  induction h with
  | nil => exact h'
  | keep k _ ih => exact .keep k ih
  | drop k hk _ ih => exact .drop k hk ih

theorem tnbc_drops {a b : List GTok} (h : Drops a b) : tnbc a ≤ tnbc b := by
  induction h with
  | nil => simp
  | keep k _ ih => simp only [tnbc]; omega
  | drop k _ _ ih => simp only [tnbc]; omega

theorem drops_eq {a b : List GTok} (h : Drops a b) (hn : tnbc b ≤ tnbc a) : a = b := by
  induction h with
  | nil => rfl
  | keep k h ih =>
    simp only [tnbc] at hn
    rw [ih (by omega)]
  | drop k hk h ih =>
    have := tnbc_drops h
    have : 0 < nbc (tokText k) := by rcases hk with rfl | rfl <;> decide
    simp only [tnbc] at hn; omega

/-! ## The tokens of what is read -/

theorem toks_args_cons (x : GoExpr) (xs : List GoExpr) : toksOf (argPieces (x :: xs)) = gt x ++ (if xs = [] then [] else .comma :: toksOf (argPieces xs)) := by
  cases xs with
  | nil => simp [argPieces, argPiecesTail]
  | cons y ys => simp [argPieces, argPiecesTail]

theorem p_sub (u : GoVersion) : ∀ n,
    (∀ p ts x r, pExpr u n p ts = some (x, r) → ∃ c, ts = c ++ r ∧ Drops (gt x) c) ∧
    (∀ p x0 ts x r, pBinary u n p x0 ts = some (x, r) → ∃ c, ts = c ++ r ∧ ∀ c0, Drops (gt x0) c0 → Drops (gt x) (c0 ++ c)) ∧
    (∀ ts x r, pUnary u n ts = some (x, r) → ∃ c, ts = c ++ r ∧ Drops (gt x) c) ∧
    (∀ x0 ts x r, pSuffix u n x0 ts = some (x, r) → ∃ c, ts = c ++ r ∧ ∀ c0, Drops (gt x0) c0 → Drops (gt x) (c0 ++ c)) ∧
    (∀ ts xs r, pArgs u n ts = some (xs, r) → ∃ c, ts = c ++ r ∧ Drops (toksOf (argPieces xs) ++ [GTok.rparen]) c) := by
  intro n
  induction n with
  | zero => simp [pExpr, pBinary, pUnary, pSuffix, pArgs]
  | succ n ih =>
    obtain ⟨iE, iB, iU, iS, iA⟩ := ih
    refine ⟨?_, ?_, ?_, ?_, ?_⟩
    · intro p ts x r h
      rw [pExpr] at h
      cases hu : pUnary u n ts with
      | none => rw [hu] at h; simp at h
      | some z =>
        obtain ⟨y, r'⟩ := z
        rw [hu] at h
        obtain ⟨c1, e1, s1⟩ := iU _ _ _ hu
        obtain ⟨c2, e2, s2⟩ := iB _ _ _ _ _ h
        exact ⟨c1 ++ c2, by rw [e1, e2]; simp, s2 _ s1⟩
    · intro p x0 ts x r h
      cases ts with
      | nil =>
        simp only [pBinary, Option.some.injEq, Prod.mk.injEq] at h
        obtain ⟨rfl, rfl⟩ := h
        exact ⟨[], rfl, fun c0 hc => by simpa using hc⟩
      | cons k ts =>
        by_cases hk : ∃ o, k = .op o
        · obtain ⟨o, rfl⟩ := hk
          rw [pBinary] at h
          split at h
          · cases hu : pExpr u n (o.level + 1) ts with
            | none => rw [hu] at h; simp at h
            | some z =>
              obtain ⟨y, r'⟩ := z
              rw [hu] at h
              obtain ⟨c1, e1, s1⟩ := iE _ _ _ _ hu
              obtain ⟨c2, e2, s2⟩ := iB _ _ _ _ _ h
              refine ⟨.op o :: c1 ++ c2, by rw [e1, e2]; simp, fun c0 hc => ?_⟩
              have : Drops (gt (.binary x0 0 o y)) (c0 ++ .op o :: c1) := by
                have e : gt (.binary x0 0 o y) = gt x0 ++ .op o :: gt y := by
                  simp only [gt, pieces]
                  split <;> simp
                rw [e]
                exact hc.append (s1.keep _)
              have := s2 _ this
              simpa using this
          · simp only [Option.some.injEq, Prod.mk.injEq] at h
            obtain ⟨rfl, rfl⟩ := h
            exact ⟨[], rfl, fun c0 hc => by simpa using hc⟩
        · have : pBinary u (n + 1) p x0 (k :: ts) = some (x0, k :: ts) := by
            cases k <;> first | rfl | exact absurd ⟨_, rfl⟩ hk
          rw [this] at h
          simp only [Option.some.injEq, Prod.mk.injEq] at h
          obtain ⟨rfl, rfl⟩ := h
          exact ⟨[], rfl, fun c0 hc => by simpa using hc⟩
    · intro ts x r h
      cases ts with
      | nil => simp [pUnary] at h
      | cons k ts =>
        cases k with
        | op o =>
          rw [pUnary_op] at h
          split at h
          · rename_i ho
            cases hu : pUnary u n ts with
            | none => rw [hu] at h; simp at h
            | some z =>
              obtain ⟨y, r'⟩ := z
              rw [hu] at h
              simp only [Option.map_some, Option.some.injEq, Prod.mk.injEq] at h
              obtain ⟨rfl, rfl⟩ := h
              obtain ⟨c, e, s⟩ := iU _ _ _ hu
              subst ho
              exact ⟨.op .mul :: c, by rw [e]; rfl, by simpa [gt, pieces] using s.keep (.op .mul)⟩
          · split at h
            · cases hu : pUnary u n ts with
              | none => rw [hu] at h; simp at h
              | some z =>
                obtain ⟨y, r'⟩ := z
                rw [hu] at h
                simp only [Option.map_some, Option.some.injEq, Prod.mk.injEq] at h
                obtain ⟨rfl, rfl⟩ := h
                obtain ⟨c, e, s⟩ := iU _ _ _ hu
                exact ⟨.op o :: c, by rw [e]; rfl, by simpa [gt, pieces] using s.keep (.op o)⟩
            · simp at h
        | ident s =>
          rw [pUnary_ident] at h
          obtain ⟨c, e, hs⟩ := iS _ _ _ _ h
          exact ⟨.ident s :: c, by rw [e]; rfl, hs [.ident s] (by simpa [gt, pieces] using Drops.refl [GTok.ident s])⟩
        | lit k s =>
          rw [pUnary_lit] at h
          obtain ⟨c, e, hs⟩ := iS _ _ _ _ h
          exact ⟨.lit k s :: c, by rw [e]; rfl, hs [.lit k s] (by simpa [gt, pieces] using Drops.refl [GTok.lit k s])⟩
        | lparen =>
          rw [pUnary_lparen] at h
          split at h
          · rename_i y ts' hu
            obtain ⟨c1, e1, s1⟩ := iE _ _ _ _ hu
            obtain ⟨c2, e2, s2⟩ := iS _ _ _ _ h
            refine ⟨.lparen :: c1 ++ .rparen :: c2, by rw [e1, e2]; simp, ?_⟩
            have := s2 (.lparen :: c1 ++ [.rparen]) (by
              simp only [gt, pieces, List.cons_append, toksOf_tok, toksOf_append, toksOf_nil]
              exact (s1.append (.refl _)).keep _)
            simpa using this
          · simp at h
        | _ => simp [pUnary] at h
    · intro x0 ts x r h
      have stop : pSuffix u (n + 1) x0 ts = some (x0, ts) → ∃ c, ts = c ++ r ∧ ∀ c0, Drops (gt x0) c0 → Drops (gt x) (c0 ++ c) := by
        intro h'
        rw [h'] at h
        simp only [Option.some.injEq, Prod.mk.injEq] at h
        obtain ⟨rfl, rfl⟩ := h
        exact ⟨[], rfl, fun c0 hc => by simpa using hc⟩
      cases ts with
      | nil => exact stop rfl
      | cons k ts =>
        cases k with
        | period =>
          cases ts with
          | nil => simp [pSuffix] at h
          | cons k ts =>
            cases k with
            | ident s =>
              rw [pSuffix] at h
              obtain ⟨c, e, hs⟩ := iS _ _ _ _ h
              refine ⟨.period :: .ident s :: c, by rw [e]; rfl, fun c0 hc => ?_⟩
              have := hs (c0 ++ [.period, .ident s]) (by
                simp only [gt, pieces, toksOf_append, toksOf_tok, toksOf_nil]
                exact hc.append (.refl _))
              simpa using this
            | _ => simp [pSuffix] at h
        | lparen =>
          rw [pSuffix] at h
          cases hu : pArgs u n ts with
          | none => rw [hu] at h; simp at h
          | some z =>
            obtain ⟨args, ts'⟩ := z
            rw [hu] at h
            obtain ⟨c1, e1, s1⟩ := iA _ _ _ hu
            obtain ⟨c2, e2, s2⟩ := iS _ _ _ _ h
            refine ⟨.lparen :: c1 ++ c2, by rw [e1, e2]; simp, fun c0 hc => ?_⟩
            have := s2 (c0 ++ .lparen :: c1) (by
              have e : gt (.call x0 0 args 0 0) = gt x0 ++ .lparen :: (toksOf (argPieces args) ++ [.rparen]) := by simp [gt, pieces]
              rw [e]
              exact hc.append (s1.keep _))
            simpa using this
        | _ => exact stop rfl
    · intro ts xs r h
      by_cases hr : ∃ ts', ts = .rparen :: ts'
      · obtain ⟨ts', rfl⟩ := hr
        simp only [pArgs, Option.some.injEq, Prod.mk.injEq] at h
        obtain ⟨rfl, rfl⟩ := h
        exact ⟨[.rparen], rfl, by simpa [argPieces] using Drops.refl [GTok.rparen]⟩
      · rw [pArgs_eq fun ts' e => hr ⟨ts', e⟩] at h
        split at h
        · rename_i y ts' hu
          simp only [Option.some.injEq, Prod.mk.injEq] at h
          obtain ⟨rfl, rfl⟩ := h
          obtain ⟨c, e, s⟩ := iE _ _ _ _ hu
          exact ⟨c ++ [.rparen], by rw [e]; simp, by rw [toks_args_cons]; simpa using s.append (Drops.refl [GTok.rparen])⟩
        · rename_i y ts' hu
          simp only [Option.some.injEq, Prod.mk.injEq] at h
          obtain ⟨rfl, rfl⟩ := h
          obtain ⟨c, e, s⟩ := iE _ _ _ _ hu
          refine ⟨c ++ [.ellipsis, .rparen], by rw [e]; simp, ?_⟩
          rw [toks_args_cons]; simpa using s.append ((Drops.refl [GTok.rparen]).drop GTok.ellipsis (.inr rfl))
        · rename_i y ts' hu
          simp only [Option.some.injEq, Prod.mk.injEq] at h
          obtain ⟨rfl, rfl⟩ := h
          obtain ⟨c, e, s⟩ := iE _ _ _ _ hu
          refine ⟨c ++ [.ellipsis, .comma, .rparen], by rw [e]; simp, ?_⟩
          rw [toks_args_cons]; simpa using s.append (((Drops.refl [GTok.rparen]).drop GTok.comma (.inl rfl)).drop GTok.ellipsis (.inr rfl))
        · rename_i y ts' hu
          cases ha : pArgs u n ts' with
          | none => rw [ha] at h; simp at h
          | some z =>
            obtain ⟨ys, ts''⟩ := z
            rw [ha] at h
            simp only [Option.map_some, Option.some.injEq, Prod.mk.injEq] at h
            obtain ⟨rfl, rfl⟩ := h
            obtain ⟨c, e, s⟩ := iE _ _ _ _ hu
            obtain ⟨c', e', s'⟩ := iA _ _ _ ha
            refine ⟨c ++ .comma :: c', by rw [e, e']; simp, ?_⟩
            rw [toks_args_cons]
            split
            · rename_i hn
              subst hn
              have := s.append (s'.drop .comma (.inl rfl))
              simpa [argPieces] using this
            · have := s.append (s'.keep .comma)
              simpa using this
        · simp at h

theorem parseToks_sub {u : GoVersion} {ts e} (h : parseToks u ts = some e) : ∃ c, Drops (gt e) c ∧ (ts = c ∨ ts = c ++ [.semi]) := by
  unfold parseToks at h
  split at h
  · rename_i hu
    simp only [Option.some.injEq] at h; subst h
    obtain ⟨c, e, s⟩ := (p_sub u _).1 _ _ _ _ hu
    exact ⟨c, s, .inl (by simpa using e)⟩
  · rename_i hu
    simp only [Option.some.injEq] at h; subst h
    obtain ⟨c, e, s⟩ := (p_sub u _).1 _ _ _ _ hu
    exact ⟨c, s, .inr e⟩
  · simp at h

/-! ## Scanning loses nothing but blanks and comments -/

theorem op_text {u : GoVersion} {s k r} (h : operator u s = some (k, r)) : ∃ w, s = w ++ r ∧ nbc (tokText k) ≤ nbc w := by
  unfold operator at h
  split at h
  · split at h
    · simp only [Option.some.injEq, Prod.mk.injEq] at h
      obtain ⟨rfl, rfl⟩ := h
      exact ⟨['~'], rfl, Nat.le_refl _⟩
    · simp at h
  · split at h
    · rename_i w k' hf
      have hm := List.mem_of_find?_eq_some hf
      have hp := List.find?_some hf
      have hne : operators.all (fun o => decide (nbc (tokText o.2) ≤ nbc o.1)) = true := by decide +kernel
      have hne := List.all_eq_true.1 hne _ hm
      simp only [Option.some.injEq, Prod.mk.injEq] at h
      obtain ⟨rfl, rfl⟩ := h
      refine ⟨w, ?_, by simpa using hne⟩
      obtain ⟨z, hz⟩ := List.isPrefixOf_iff_prefix.1 hp
      rw [← hz]; simp
    · simp at h

theorem lexTok_nbc {u : GoVersion} {c s k r} (h : lexTok u (c :: s) = some (k, r)) : nbc (tokText k) + nbc r ≤ nbc (c :: s) := by
  by_cases hw : isWord k = true
  · obtain ⟨h1, w, h2, h3⟩ := lexTok_again h hw
    rw [h2, nbc_append]
    rcases h3 with h3 | h3
    · rw [h3]; exact Nat.le_refl _
    · rw [h3, nbc_cr]; exact Nat.le_refl _
  · have hsuf := lexTok_rest h
    obtain ⟨w, -, hw2⟩ := hsuf
    rw [lexTok_eq] at h
    split at h
    · rename_i hc
      simp only [Option.some.injEq, Prod.mk.injEq] at h
      have : tokText k = [] := by
        rw [← h.1] at hw ⊢
        split
        · rfl
        · rename_i hk; rw [if_neg hk] at hw; simp [isWord] at hw
      rw [this, hw2, nbc_append]; simp
    split at h
    · obtain ⟨kd, h1, -⟩ := number_lit h
      rw [h1] at hw; simp [isWord] at hw
    split at h
    · cases hb : quoted '"' .body s with
      | none => rw [hb] at h; simp at h
      | some z =>
        rw [hb] at h
        simp only [Option.map_some, Option.some.injEq, Prod.mk.injEq] at h
        rw [← h.1] at hw; simp [isWord] at hw
    split at h
    · split at h
      · simp only [Option.some.injEq, Prod.mk.injEq] at h
        rw [← h.1] at hw; simp [isWord] at hw
      · simp at h
    split at h
    · cases hb : rawBody s with
      | none => rw [hb] at h; simp at h
      | some z =>
        rw [hb] at h
        simp only [Option.map_some, Option.some.injEq, Prod.mk.injEq] at h
        rw [← h.1] at hw; simp [isWord] at hw
    · obtain ⟨w', e, hn⟩ := op_text h
      rw [e, nbc_append]; omega

theorem tnbc_semi (ts : List GTok) : tnbc (.semi :: ts) = tnbc ts := by simp [tnbc, tokText]

theorem lexGo_nbc {u : GoVersion} : ∀ {n nl s ts}, lexGo u n nl s = some ts → tnbc ts ≤ nbc s
  | 0, _, _, _, h => by simp [lexGo] at h
  | n + 1, nl, [], ts, h => by simp [lexGo] at h; subst h; simp [tnbc]
  | n + 1, nl, c :: s, ts, h => by
    rw [lexGo_cons] at h
    have hle : nbc s ≤ nbc (c :: s) := by rw [nbc_cons]; omega
    split at h
    · split at h
      · cases hr : lexGo u n false s with
        | none => rw [hr] at h; simp at h
        | some z =>
          rw [hr] at h; simp at h; subst h
          have := lexGo_nbc hr
          rw [tnbc_semi]; omega
      · have := lexGo_nbc h; omega
    split at h
    · have := lexGo_nbc h; omega
    split at h
    · rename_i s _ _
      have := lexGo_nbc h
      have h2 : nbc (s.dropWhile (· != '\n')) ≤ nbc s := by
        have := congrArg nbc (List.takeWhile_append_dropWhile (p := (· != '\n')) (l := s))
        rw [nbc_append] at this; omega
      have h3 : nbc ('/' :: s) = nbc s + 1 := nbc_cons_one _ (by decide)
      omega
    · rename_i s _ _
      have h3 : nbc ('*' :: s) = nbc s + 1 := nbc_cons_one _ (by decide)
      split at h
      · simp at h
      · rename_i b s' hcc
        obtain ⟨w, hw⟩ := closeComment_suffix hcc
        have h2 : nbc s' ≤ nbc s := by rw [hw, nbc_append]; omega
        split at h
        · cases hr : lexGo u n false s' with
          | none => rw [hr] at h; simp at h
          | some z =>
            rw [hr] at h; simp at h; subst h
            have := lexGo_nbc hr
            rw [tnbc_semi]; omega
        · have := lexGo_nbc h; omega
    · split at h
      · simp at h
      · rename_i k r hk
        cases hr : lexGo u n (endsLine k) r with
        | none => rw [hr] at h; simp at h
        | some z =>
          rw [hr] at h; simp at h; subst h
          have := lexGo_nbc hr
          have := lexTok_nbc hk
          simp only [tnbc]; omega

theorem nbc_gText (ps : List Piece) : nbc (gText ps) = tnbc (toksOf ps) := by
  induction ps with
  | nil => rfl
  | cons p ps ih =>
    cases p with
    | blank => rw [gText_blank, toksOf_blank, nbc_cons_blank _ (by decide), ih]
    | tok k => rw [gText_tok, toksOf_tok, nbc_append, tnbc, ih]

theorem nbc_noMarks {t t'} (h : noMarks t = some t') : nbc t' ≤ nbc t := by
  obtain ⟨⟨w, hw⟩, -⟩ := noMarks_some h
  rw [hw, nbc_append]; omega

/-- Whatever is read is at least as long as its printed form, blanks aside. -/
theorem goSyntax_nbc {u : GoVersion} {t e} (h : goSyntax u t = some e) : nbc (showGo e) ≤ nbc t := by
  unfold goSyntax lexAll at h
  cases hm : noMarks t with
  | none => rw [hm] at h; simp at h
  | some t' =>
    rw [hm] at h
    simp only [Option.bind_some] at h
    cases hl : lexGo u (t'.length + 1) false t' with
    | none => rw [hl] at h; simp at h
    | some ts =>
      rw [hl] at h
      obtain ⟨c, hd, hc⟩ := parseToks_sub h
      have h1 : tnbc (toksOf (pieces e)) ≤ tnbc ts := by
        have := tnbc_drops hd
        rcases hc with rfl | rfl
        · exact this
        · rw [tnbc_append]; exact Nat.le_trans this (by omega)
      have h2 := lexGo_nbc hl
      have h3 := nbc_noMarks hm
      rw [show_eq, nbc_gText]
      omega

/-! ## Fused tokens -/

def noSemi (ts : List GTok) : List GTok := ts.filter fun k => decide (k ≠ .semi)

theorem noSemi_cons {k : GTok} (h : k ≠ .semi) (ts : List GTok) : noSemi (k :: ts) = k :: noSemi ts := by simp [noSemi, h]
theorem tnbc_noSemi (ts : List GTok) : tnbc (noSemi ts) = tnbc ts := by
  induction ts with
  | nil => rfl
  | cons k ts ih =>
    by_cases h : k = .semi
    · subst h; rw [tnbc_semi]; exact ih
    · rw [noSemi_cons h]; simp only [tnbc, ih]

theorem find_and {r : Str} {c : Char} (hc : c = '&' ∨ c = '^') {w k} (h : operators.find? (fun o => o.1.isPrefixOf ('&' :: c :: r)) = some (w, k)) :
    k ≠ .op .and ∧ k ≠ .semi := by
  rw [operators_eq] at h
  rcases hc with rfl | rfl
  · simp [List.find?, List.isPrefixOf] at h
    rw [← h.2]; decide
  · cases r with
    | nil => simp [List.find?, List.isPrefixOf] at h; rw [← h.2]; decide
    | cons d r =>
      by_cases hd : d = '='
      · subst hd; simp [List.find?, List.isPrefixOf] at h; rw [← h.2]; decide
      · have : ('=' == d) = false := by simpa using fun e => hd e.symm
        simp [List.find?, List.isPrefixOf, this] at h; rw [← h.2]; decide

theorem find_add {r : Str} {w k} (h : operators.find? (fun o => o.1.isPrefixOf ('+' :: '+' :: r)) = some (w, k)) : k = .other := by
  rw [operators_eq] at h
  simp [List.find?, List.isPrefixOf] at h
  exact h.2.symm

theorem find_sub {r : Str} {w k} (h : operators.find? (fun o => o.1.isPrefixOf ('-' :: '-' :: r)) = some (w, k)) : k = .other := by
  rw [operators_eq] at h
  simp [List.find?, List.isPrefixOf] at h
  exact h.2.symm

theorem operator_inv {u : GoVersion} {c : Char} {s k r} (hc : c ≠ '~') (h : operator u (c :: s) = some (k, r)) :
    ∃ w, operators.find? (fun o => o.1.isPrefixOf (c :: s)) = some (w, k) := by
  unfold operator at h
  split at h
  · rename_i e; simp only [List.cons.injEq] at e; exact absurd e.1 hc
  · split at h
    · rename_i w k' hf
      simp only [Option.some.injEq, Prod.mk.injEq] at h
      exact ⟨w, by rw [hf, h.1]⟩
    · simp at h

theorem lexTok_op_inv {u : GoVersion} {c : Char} {s k r} (hc : c ∈ ['+', '-', '&']) (h : lexTok u (c :: s) = some (k, r)) :
    ∃ w, operators.find? (fun o => o.1.isPrefixOf (c :: s)) = some (w, k) := by
  have hp : ∀ c ∈ ['+', '-', '&'], c.toNat < 0x80 ∧ isAsciiLetter c = false ∧ c ≠ '"' ∧ c ≠ '\'' ∧ c ≠ '`' ∧ c ≠ '~' := by decide
  obtain ⟨p1, p2, p3, p4, p5, p6⟩ := hp c hc
  rw [lexTok_op p1 p2 ?_ p3 p4 p5] at h
  · exact operator_inv p6 h
  · clear h
    simp only [List.mem_cons, List.not_mem_nil, or_false] at hc
    rcases hc with rfl | rfl | rfl <;> simp [numStart, isDec]

theorem kind_int_parts {n : NumParts} (h : n.kind = some .int) : n.frac = [] ∧ n.exp = [] ∧ n.suf = [] := by
  unfold NumParts.kind at h
  simp only at h
  obtain ⟨K, hK⟩ : ∃ K : LitKind, (if n.suf != [] then LitKind.imag else if n.frac != [] || n.exp != [] then .float else .int) = K := ⟨_, rfl⟩
  rw [hK] at h
  have : K = .int := by
    repeat (replace h := of_ite_none h)
    simpa using h
  subst this
  split at hK
  · simp at hK
  · rename_i h1
    split at hK
    · simp at hK
    · rename_i h2
      simp at h1 h2
      exact ⟨h2.1, h2.2, h1⟩

theorem kind_frac {n : NumParts} {k} (h : n.kind = some k) (hf : n.frac ≠ []) : k ≠ .int := by
  rintro rfl
  exact hf (kind_int_parts h).1

theorem number_point {s r : Str} (hs : s ≠ []) (hk : (numParts s).kind = some .int) (hr : (numParts s).rest = []) : (numParts (s ++ '.' :: r)).frac ≠ [] := by
  have h : HeadIs plainStop ('.' :: r) := headIs_cons.2 (by decide)
  have hp := numPrefix_stop hs h
  have hd : (s ++ '.' :: r).drop (numPrefix s).1.length = s.drop (numPrefix s).1.length ++ '.' :: r := by
    rw [List.drop_append_of_le_length (numPrefix_length s)]
  have hsp := @spanOf_stop (digits (numPrefix s).2) (s.drop (numPrefix s).1.length) ('.' :: r) (h.mono fun c hc => digits_stop hc)
  obtain ⟨k1, k2, k3⟩ := kind_int_parts hk
  have hx := spanOf_text (digits (numPrefix s).2) (s.drop (numPrefix s).1.length)
  have hrest : (spanOf (digits (numPrefix s).2) (s.drop (numPrefix s).1.length)).2 = [] := by
    have h1 := numParts_text s
    rw [hr, NumParts.text, k1, k2, k3] at h1
    have h2 : (numParts s).pre = (numPrefix s).1 := rfl
    have h3 : (numParts s).int = (spanOf (digits (numPrefix s).2) (s.drop (numPrefix s).1.length)).1 := rfl
    rw [h2, h3] at h1
    have hpre : (numPrefix s).1 ++ s.drop (numPrefix s).1.length = s := by
      unfold numPrefix; split <;> simp
    rw [← hx] at hpre
    have := congrArg List.length (h1.trans hpre.symm)
    simp only [List.append_nil, List.length_append] at this
    exact List.eq_nil_of_length_eq_zero (by omega)
  have : (numParts (s ++ '.' :: r)).frac = (fracOf (numPrefix s).2 ('.' :: r)).1 := by
    unfold numParts
    simp only [hp, hd, hsp, hrest, List.nil_append]
  rw [this, fracOf_dot]
  simp

theorem lexTok_fused {u : GoVersion} {a b : GTok} {r : Str} {k r'} (ha : TokOK u a) (hf : Fuses a b) (hq : a ≠ .op .quo)
    (h : lexTok u (tokText a ++ (tokText b ++ r)) = some (k, r')) : k ≠ a ∧ k ≠ .semi := by
  cases a with
  | op o =>
    cases o with
    | add =>
      cases b with
      | op p =>
        cases p <;> try exact hf.elim
        obtain ⟨w, hw⟩ := lexTok_op_inv (by simp) h
        rw [find_add hw]; decide
      | _ => exact hf.elim
    | sub =>
      cases b with
      | op p =>
        cases p <;> try exact hf.elim
        obtain ⟨w, hw⟩ := lexTok_op_inv (by simp) h
        rw [find_sub hw]; decide
      | _ => exact hf.elim
    | and =>
      cases b with
      | op p =>
        cases p <;> try exact hf.elim
        all_goals
          obtain ⟨w, hw⟩ := lexTok_op_inv (by simp) h
          exact find_and (by simp) hw
      | _ => exact hf.elim
    | quo => exact absurd rfl hq
    | _ => exact hf.elim
  | lit kd s =>
    cases kd with
    | int =>
      cases b with
      | period =>
        obtain ⟨h1, -⟩ := ha
        have hs : s ≠ [] := by rintro rfl; simp [lexTok] at h1
        cases s with
        | nil => exact absurd rfl hs
        | cons c s =>
          cases lexTok_word h1 rfl with
          | ident w hc hw hk e => simp at e
          | str n t hc hq e => simp at e
          | chr t hc hq e => simp at e
          | raw t hc hq e => simp at e
          | num kd hc hn hnum e =>
            simp only [GTok.lit.injEq] at e
            obtain ⟨rfl, e⟩ := e
            obtain ⟨kd, h2, h3, h4⟩ := number_lit hnum
            simp only [GTok.lit.injEq] at h2
            rw [← h2.1] at h4
            have hp := number_point (r := r) (by simp) h4 h3.symm
            have h' : lexTok u (c :: (s ++ '.' :: r)) = some (k, r') := h
            rw [lexTok_num hc (numStart_append hn)] at h'
            obtain ⟨kd', h5, -, h6⟩ := number_lit h'
            have := kind_frac h6 hp
            rw [h5]
            exact ⟨fun e => this (by simp at e; exact e.1), by simp⟩
      | _ => exact hf.elim
    | _ => exact hf.elim
  | _ => exact hf.elim

/-- Neighbours that do not fuse. -/
def Unfused : Piece → Piece → Prop
  | .tok a, .tok b => ¬ Fuses a b
  | _, _ => True

theorem semi_ne {u : GoVersion} {k : GTok} (h : TokOK u k) : k ≠ .semi := by rintro rfl; exact h

theorem chain_tail {R : Piece → Piece → Prop} {a ps} (h : Chain R (a :: ps)) : Chain R ps := by
  cases ps with
  | nil => trivial
  | cons b ps => exact h.2

theorem unfused_of_lex {u : GoVersion} : ∀ {ps : List Piece}, (∀ k, .tok k ∈ ps → TokOK u k) → Chain (Link u) ps →
    ∀ {n nl ts}, lexGo u n nl (gText ps) = some ts → noSemi ts = toksOf ps → Chain Unfused ps
  | [], _, _, _, _, _, _, _ => trivial
  | a :: ps, hok, hc, 0, nl, ts, h, he => by simp [lexGo] at h
  | .blank :: ps, hok, hc, n + 1, nl, ts, h, he => by
    rw [gText_blank, lexGo_cons, if_neg (by decide), if_pos (by simp)] at h
    have := unfused_of_lex (fun k hk => hok k (by simp [hk])) (chain_tail hc) h he
    cases ps with
    | nil => trivial
    | cons b ps => exact ⟨by cases b <;> trivial, this⟩
  | .tok k :: ps, hok, hc, n + 1, nl, ts, h, he => by
    have hk := hok k (by simp)
    have hok' : ∀ k, .tok k ∈ ps → TokOK u k := fun k hk => hok k (by simp [hk])
    have hc' := chain_tail hc
    rw [gText_tok] at h
    rw [toksOf_tok] at he
    by_cases hf : ∃ b qs, ps = .tok b :: qs ∧ Fuses k b
    · exfalso
      obtain ⟨b, qs, rfl, hf⟩ := hf
      rw [gText_tok] at h
      by_cases hq : k = .op .quo
      · subst hq
        have hb : b = .op .mul := by
          cases b with
          | op p => cases p <;> first | rfl | exact hf.elim
          | _ => exact hf.elim
        subst hb
        have e : tokText (.op .quo) ++ (tokText (.op .mul) ++ gText qs) = '/' :: '*' :: gText qs := rfl
        rw [e, lexGo_cons, if_neg (by decide), if_neg (by decide)] at h
        simp only at h
        have total : tnbc ts = 2 + nbc (gText qs) := by
          rw [← tnbc_noSemi, he, toksOf_tok, nbc_gText]
          simp only [tnbc]
          have e1 : nbc (tokText (.op .quo)) = 1 := by decide
          have e2 : nbc (tokText (.op .mul)) = 1 := by decide
          omega
        split at h
        · simp at h
        · rename_i b s' hcc
          obtain ⟨w, hw⟩ := closeComment_suffix hcc
          have h2 : nbc s' ≤ nbc (gText qs) := by rw [hw, nbc_append]; omega
          split at h
          · cases hr : lexGo u n false s' with
            | none => rw [hr] at h; simp at h
            | some z =>
              rw [hr] at h; simp at h; subst h
              have := lexGo_nbc hr
              rw [tnbc_semi] at total; omega
          · have := lexGo_nbc h; omega
      · cases ht : tokText k with
        | nil => exact absurd ht (tokText_ne hk)
        | cons c s =>
          obtain ⟨t1, t2, t3, t4, t5⟩ := tok_head hk ht
          have hl := @lexTok_fused u k b (gText qs)
          rw [ht] at h hl
          cases hlex : lexTok u (c :: (s ++ (tokText b ++ gText qs))) with
          | none =>
            rw [List.cons_append, lexGo_cons, if_neg t1, if_neg (by simp [t2, t3, t4])] at h
            split at h
            · exact hq (t5 rfl)
            · exact hq (t5 rfl)
            · rw [hlex] at h; simp at h
          | some z =>
            obtain ⟨k', r'⟩ := z
            obtain ⟨n1, n2⟩ := hl hk hf hq hlex
            rw [List.cons_append, lexGo_tok t1 t2 t3 t4 (fun e => absurd (t5 e) hq) hlex] at h
            cases hr : lexGo u n (endsLine k') r' with
            | none => rw [hr] at h; simp at h
            | some z =>
              rw [hr] at h; simp only [Option.map_some, Option.some.injEq] at h; subst h
              rw [noSemi_cons n2] at he
              simp only [List.cons.injEq] at he
              exact n1 he.1
    · have hsep : HeadIs (Sep u k) (gText ps) := by
        cases ps with
        | nil => exact headIs_nil
        | cons b ps =>
          refine head_text hok' ?_
          have := hc.1
          cases b with
          | blank => exact headIs_cons.2 (sep_blank k)
          | tok b => exact apart_of_link this (fun h => hf ⟨b, ps, rfl, h⟩) (hok' b (by simp))
      have hl := lexTok_stop hk hsep
      have htail : Chain Unfused ps := by
        cases ht : tokText k with
        | nil => exact absurd ht (tokText_ne hk)
        | cons c s =>
          obtain ⟨t1, t2, t3, t4, t5⟩ := tok_head hk ht
          rw [ht, List.cons_append] at hl h
          rw [lexGo_tok t1 t2 t3 t4 ?_ hl] at h
          · cases hr : lexGo u n (endsLine k) (gText ps) with
            | none => rw [hr] at h; simp at h
            | some z =>
              rw [hr] at h; simp only [Option.map_some, Option.some.injEq] at h; subst h
              rw [noSemi_cons (semi_ne hk)] at he
              simp only [List.cons.injEq, true_and] at he
              exact unfused_of_lex hok' hc' hr he
          · intro e
            have hq := t5 e
            subst hq
            have : s = [] := by
              simp [tokText, Tok.str] at ht; exact ht.2
            subst this
            exact hsep.mono fun d hd => hd.2
      cases ps with
      | nil => trivial
      | cons b ps =>
        refine ⟨?_, htail⟩
        cases b with
        | blank => trivial
        | tok b => exact fun h => hf ⟨b, ps, rfl, h⟩

theorem noFuse_of_chain : ∀ {ps : List Piece}, Chain Unfused ps → NoFuse ps
  | [], _ => by rintro pre a b post e; simp at e
  | p :: ps, h => by
    intro pre a b post e
    cases pre with
    | nil =>
      simp only [List.nil_append, List.cons.injEq] at e
      obtain ⟨rfl, rfl⟩ := e
      exact h.1
    | cons q pre =>
      simp only [List.cons_append, List.cons.injEq] at e
      exact noFuse_of_chain (chain_tail h) pre a b post e.2

/-- If the printed form of a tree is read as this tree, no tokens fuse in it. -/
theorem noFuse_of_show {u : GoVersion} {e : GoExpr} (h : goSyntax u (showGo e) = some e) : NoFuse (pieces e) := by
  have hw := (goSyntax_sound h).1
  have hp := printed u e hw
  have hm := gText_marks hp.ok
  unfold goSyntax lexAll at h
  rw [show_eq, noMarks_of hm.1 hm.2] at h
  simp only [Option.bind_some] at h
  cases hl : lexGo u ((gText (pieces e)).length + 1) false (gText (pieces e)) with
  | none => rw [hl] at h; simp at h
  | some ts =>
    rw [hl] at h
    simp only [Option.bind_some] at h
    obtain ⟨c, hd, hc⟩ := parseToks_sub h
    have hn := lexGo_nbc hl
    rw [nbc_gText] at hn
    have hsemi : ∀ k ∈ toksOf (pieces e), k ≠ .semi := by
      intro k hk
      refine semi_ne (hp.ok k ?_)
      unfold toksOf at hk
      simp only [List.mem_filterMap] at hk
      obtain ⟨p, hp, hpk⟩ := hk
      cases p with
      | blank => simp at hpk
      | tok k' => simp at hpk; subst hpk; exact hp
    have hself : noSemi (toksOf (pieces e)) = toksOf (pieces e) := List.filter_eq_self.2 (by intro k hk; simpa using hsemi k hk)
    have hfin : noSemi ts = toksOf (pieces e) := by
      rcases hc with rfl | rfl
      · have := drops_eq hd hn
        rw [← this]; exact hself
      · rw [tnbc_append] at hn
        have := drops_eq hd (by show tnbc c ≤ tnbc (toksOf (pieces e)); omega)
        rw [← this]
        show List.filter _ (toksOf (pieces e) ++ [GTok.semi]) = _
        rw [List.filter_append]
        have h2 : noSemi (toksOf (pieces e)) ++ noSemi [GTok.semi] = toksOf (pieces e) := by rw [hself]; simp [noSemi]
        exact h2
    exact noFuse_of_chain (unfused_of_lex hp.ok hp.chain hl hfin)

end Verif.Proof

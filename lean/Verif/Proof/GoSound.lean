import Verif.Proof.GoParse
/-!
# Whatever the reference Go grammar reads is well formed
-/
namespace Verif.Proof
open Verif Verif.Spec

/-- Names and literals. -/
def isLeaf : GTok → Bool
  | .ident _ => true
  | .lit .. => true
  | _ => false

/-- All names and literals of the printed form satisfy `P`. -/
def Leaves (P : GTok → Prop) (e : GoExpr) : Prop := ∀ k, .tok k ∈ pieces e → isLeaf k = true → P k
def Leavess (P : GTok → Prop) (es : List GoExpr) : Prop := ∀ e ∈ es, Leaves P e

theorem mem_argPiecesTail {k : GTok} {es} (h : .tok k ∈ argPiecesTail es) : k = .comma ∨ ∃ e ∈ es, .tok k ∈ pieces e := by
  induction es with
  | nil => simp [argPiecesTail] at h
  | cons e es ih =>
    simp only [argPiecesTail, List.mem_cons, List.mem_append, List.cons_append, Piece.tok.injEq, reduceCtorEq, false_or] at h
    rcases h with h | h | h
    · exact .inl h
    · exact .inr ⟨e, by simp, h⟩
    · rcases ih h with h | ⟨e', he, h⟩
      · exact .inl h
      · exact .inr ⟨e', by simp [he], h⟩

theorem mem_argPieces {k : GTok} {es} (h : .tok k ∈ argPieces es) : k = .comma ∨ ∃ e ∈ es, .tok k ∈ pieces e := by
  cases es with
  | nil => simp [argPieces] at h
  | cons e es =>
    simp only [argPieces, List.mem_append] at h
    rcases h with h | h
    · exact .inr ⟨e, by simp, h⟩
    · rcases mem_argPiecesTail h with h | ⟨e', he, h⟩
      · exact .inl h
      · exact .inr ⟨e', by simp [he], h⟩

section
variable {P : GTok → Prop}

theorem leaves_paren {x} (h : Leaves P x) : Leaves P (.paren 0 x 0) := by
  intro k hk hl
  simp only [pieces, List.mem_cons, List.mem_append, List.cons_append, Piece.tok.injEq, List.not_mem_nil, or_false] at hk
  rcases hk with rfl | hk | rfl
  · simp [isLeaf] at hl
  · exact h k hk hl
  · simp [isLeaf] at hl

theorem leaves_unary {o x} (h : Leaves P x) : Leaves P (.unary 0 o x) := by
  intro k hk hl
  simp only [pieces, List.mem_cons, Piece.tok.injEq] at hk
  rcases hk with rfl | hk
  · simp [isLeaf] at hl
  · exact h k hk hl

theorem leaves_star {x} (h : Leaves P x) : Leaves P (.star 0 x) := by
  intro k hk hl
  simp only [pieces, List.mem_cons, Piece.tok.injEq] at hk
  rcases hk with rfl | hk
  · simp [isLeaf] at hl
  · exact h k hk hl

theorem leaves_binary {x o y} (h : Leaves P x) (h' : Leaves P y) : Leaves P (.binary x 0 o y) := by
  intro k hk hl
  have : .tok k ∈ pieces x ∨ k = .op o ∨ .tok k ∈ pieces y := by
    simp only [pieces] at hk
    split at hk <;> simpa [or_assoc] using hk
  rcases this with hk | rfl | hk
  · exact h k hk hl
  · simp [isLeaf] at hl
  · exact h' k hk hl

theorem leaves_call {f args} (h : Leaves P f) (h' : Leavess P args) : Leaves P (.call f 0 args 0 0) := by
  intro k hk hl
  simp only [pieces, List.mem_cons, List.mem_append, List.append_assoc, List.cons_append, Piece.tok.injEq, List.not_mem_nil, or_false] at hk
  rcases hk with hk | rfl | hk | rfl
  · exact h k hk hl
  · simp [isLeaf] at hl
  · rcases mem_argPieces hk with rfl | ⟨e, he, hk⟩
    · simp [isLeaf] at hl
    · exact h' e he k hk hl
  · simp [isLeaf] at hl

theorem leaves_selector {x s} (h : Leaves P x) (h' : P (.ident s)) : Leaves P (.selector x 0 s) := by
  intro k hk hl
  simp only [pieces, List.mem_cons, List.mem_append, Piece.tok.injEq, List.not_mem_nil, or_false] at hk
  rcases hk with hk | rfl | rfl
  · exact h k hk hl
  · simp [isLeaf] at hl
  · exact h'

theorem leaves_ident {s} (h : P (.ident s)) : Leaves P (.ident 0 s) := by
  intro k hk _
  simp only [pieces, List.mem_singleton, Piece.tok.injEq] at hk
  rw [hk]; exact h

theorem leaves_lit {k s} (h : P (.lit k s)) : Leaves P (.basicLit 0 k s) := by
  intro k' hk _
  simp only [pieces, List.mem_singleton, Piece.tok.injEq] at hk
  rw [hk]; exact h

/-- The tokens are acceptable: names and literals satisfy `P`. -/
def AllGood (P : GTok → Prop) (ts : List GTok) : Prop := ∀ k ∈ ts, isLeaf k = true → P k

theorem allGood_tail {k ts} (h : AllGood P (k :: ts)) : AllGood P ts := fun k' hk => h k' (by simp [hk])

def HeadPrec (q : Nat) : List GTok → Prop
  | .op o :: _ => o.level ≤ q
  | _ => True

def Below (p : Nat) : List GTok → Prop
  | .op o :: _ => o.level < p
  | _ => True

theorem prec_le (o : Tok) : o.level ≤ 5 := by cases o <;> simp [Tok.level]

theorem p_sound (u : GoVersion) (hP1 : ∀ s, P (.ident s) → OneTok u s (.ident s)) (hP2 : ∀ k s, P (.lit k s) → OneTok u s (.lit k s)) : ∀ n,
    (∀ p ts x r, pExpr u n p ts = some (x, r) → 1 ≤ p → p ≤ 6 → AllGood P ts → GoWF u x ∧ Leaves P x ∧ p ≤ goPrec x ∧ AllGood P r ∧ Below p r) ∧
    (∀ p x0 ts x r, pBinary u n p x0 ts = some (x, r) → 1 ≤ p → GoWF u x0 → Leaves P x0 → p ≤ goPrec x0 → HeadPrec (goPrec x0) ts → AllGood P ts →
      GoWF u x ∧ Leaves P x ∧ p ≤ goPrec x ∧ AllGood P r ∧ Below p r) ∧
    (∀ ts x r, pUnary u n ts = some (x, r) → AllGood P ts → GoWF u x ∧ Leaves P x ∧ 6 ≤ goPrec x ∧ AllGood P r) ∧
    (∀ x0 ts x r, pSuffix u n x0 ts = some (x, r) → GoWF u x0 → Leaves P x0 → goPrec x0 = 7 → AllGood P ts →
      GoWF u x ∧ Leaves P x ∧ goPrec x = 7 ∧ AllGood P r) ∧
    (∀ ts xs r, pArgs u n ts = some (xs, r) → AllGood P ts → GoWFs u xs ∧ Leavess P xs ∧ AllGood P r) := by
  intro n
  induction n with
  | zero => simp [pExpr, pBinary, pUnary, pSuffix, pArgs]
  | succ n ih =>
    obtain ⟨iE, iB, iU, iS, iA⟩ := ih
    refine ⟨?_, ?_, ?_, ?_, ?_⟩
    · intro p ts x r h hp1 hp6 hg
      rw [pExpr] at h
      cases hu : pUnary u n ts with
      | none => rw [hu] at h; simp at h
      | some z =>
        obtain ⟨y, r'⟩ := z
        rw [hu] at h
        obtain ⟨h1, h2, h3, h4⟩ := iU _ _ _ hu hg
        refine iB _ _ _ _ _ h hp1 h1 h2 (by omega) ?_ h4
        cases r' with
        | nil => trivial
        | cons k r' =>
          cases k <;> try trivial
          rename_i o
          have := prec_le o
          simp only [HeadPrec]; omega
    · intro p x0 ts x r h hp1 hw hl hpx hh hg
      cases ts with
      | nil =>
        simp only [pBinary, Option.some.injEq, Prod.mk.injEq] at h
        obtain ⟨rfl, rfl⟩ := h
        exact ⟨hw, hl, hpx, hg, trivial⟩
      | cons k ts =>
        by_cases hk : ∃ o, k = .op o
        · obtain ⟨o, rfl⟩ := hk
          rw [pBinary] at h
          split at h
          · rename_i hc
            cases hu : pExpr u n (o.level + 1) ts with
            | none => rw [hu] at h; simp at h
            | some z =>
              obtain ⟨y, r'⟩ := z
              rw [hu] at h
              have := prec_le o
              obtain ⟨h1, h2, h3, h4, h5⟩ := iE _ _ _ _ hu (by omega) (by omega) (allGood_tail hg)
              simp only [HeadPrec] at hh
              refine iB _ _ _ _ _ h hp1 ⟨rfl, hc.1, hw, hh, h1, by omega⟩ (leaves_binary hl h2) (by simp only [goPrec]; exact hc.2) ?_ h4
              cases r' with
              | nil => trivial
              | cons k r' =>
                cases k <;> try trivial
                simp only [Below, HeadPrec, goPrec] at h5 ⊢; omega
          · rename_i hc
            simp only [Option.some.injEq, Prod.mk.injEq] at h
            obtain ⟨rfl, rfl⟩ := h
            exact ⟨hw, hl, hpx, hg, by simp only [Below]; omega⟩
        · have : pBinary u (n + 1) p x0 (k :: ts) = some (x0, k :: ts) := by
            cases k <;> first | rfl | exact absurd ⟨_, rfl⟩ hk
          rw [this] at h
          simp only [Option.some.injEq, Prod.mk.injEq] at h
          obtain ⟨rfl, rfl⟩ := h
          exact ⟨hw, hl, hpx, hg, by cases k <;> first | trivial | exact absurd ⟨_, rfl⟩ hk⟩
    · intro ts x r h hg
      cases ts with
      | nil => simp [pUnary] at h
      | cons k ts =>
        cases k with
        | op o =>
          rw [pUnary_op] at h
          split at h
          · cases hu : pUnary u n ts with
            | none => rw [hu] at h; simp at h
            | some z =>
              obtain ⟨y, r'⟩ := z
              rw [hu] at h
              simp only [Option.map_some, Option.some.injEq, Prod.mk.injEq] at h
              obtain ⟨rfl, rfl⟩ := h
              obtain ⟨h1, h2, h3, h4⟩ := iU _ _ _ hu (allGood_tail hg)
              exact ⟨⟨rfl, h1, h3⟩, leaves_star h2, by simp [goPrec], h4⟩
          · split at h
            · rename_i hc
              cases hu : pUnary u n ts with
              | none => rw [hu] at h; simp at h
              | some z =>
                obtain ⟨y, r'⟩ := z
                rw [hu] at h
                simp only [Option.map_some, Option.some.injEq, Prod.mk.injEq] at h
                obtain ⟨rfl, rfl⟩ := h
                obtain ⟨h1, h2, h3, h4⟩ := iU _ _ _ hu (allGood_tail hg)
                exact ⟨⟨rfl, hc, h1, h3⟩, leaves_unary h2, by simp [goPrec], h4⟩
            · simp at h
        | ident s =>
          rw [pUnary_ident] at h
          have hs : P (.ident s) := hg _ (by simp) rfl
          obtain ⟨h1, h2, h3, h4⟩ := iS _ _ _ _ h ⟨rfl, hP1 s hs⟩ (leaves_ident hs) rfl (allGood_tail hg)
          exact ⟨h1, h2, by omega, h4⟩
        | lit l s =>
          rw [pUnary_lit] at h
          have hs : P (.lit l s) := hg _ (by simp) rfl
          obtain ⟨h1, h2, h3, h4⟩ := iS _ _ _ _ h ⟨rfl, hP2 l s hs⟩ (leaves_lit hs) rfl (allGood_tail hg)
          exact ⟨h1, h2, by omega, h4⟩
        | lparen =>
          rw [pUnary_lparen] at h
          cases hu : pExpr u n 1 ts with
          | none => rw [hu] at h; simp at h
          | some z =>
            rw [hu] at h
            obtain ⟨y, rs⟩ := z
            obtain ⟨h1, h2, h3, h4, h5⟩ := iE _ _ _ _ hu (by omega) (by omega) (allGood_tail hg)
            cases rs with
            | nil => simp at h
            | cons k rs =>
              cases k <;> first
                | (simp at h; done)
                | (obtain ⟨g1, g2, g3, g4⟩ := iS _ _ _ _ h ⟨rfl, rfl, h1⟩ (leaves_paren h2) rfl (allGood_tail h4)
                   exact ⟨g1, g2, by omega, g4⟩)
        | _ => simp [pUnary] at h
    · intro x0 ts x r h hw hl hp hg
      have stop : ∀ k ts', ts = k :: ts' → pSuffix u (n + 1) x0 ts = some (x0, ts) → GoWF u x ∧ Leaves P x ∧ goPrec x = 7 ∧ AllGood P r := by
        intro k ts' _ e
        rw [e] at h
        simp only [Option.some.injEq, Prod.mk.injEq] at h
        obtain ⟨rfl, rfl⟩ := h
        exact ⟨hw, hl, hp, hg⟩
      cases ts with
      | nil =>
        simp only [pSuffix, Option.some.injEq, Prod.mk.injEq] at h
        obtain ⟨rfl, rfl⟩ := h
        exact ⟨hw, hl, hp, hg⟩
      | cons k ts =>
        cases k with
        | period =>
          cases ts with
          | nil => simp [pSuffix] at h
          | cons k2 ts =>
            cases k2 with
            | ident s =>
              rw [pSuffix] at h
              have hs : P (.ident s) := hg _ (by simp) rfl
              exact iS _ _ _ _ h ⟨rfl, hw, hp, hP1 s hs⟩ (leaves_selector hl hs) rfl (allGood_tail (allGood_tail hg))
            | _ => simp [pSuffix] at h
        | lparen =>
          rw [pSuffix] at h
          cases hu : pArgs u n ts with
          | none => rw [hu] at h; simp at h
          | some z =>
            rw [hu] at h
            obtain ⟨args, r'⟩ := z
            obtain ⟨h1, h2, h3⟩ := iA _ _ _ hu (allGood_tail hg)
            exact iS _ _ _ _ h ⟨rfl, rfl, rfl, hw, hp, h1⟩ (leaves_call hl h2) rfl h3
        | _ => exact stop _ _ rfl rfl
    · intro ts xs r h hg
      by_cases hr : ∃ ts', ts = .rparen :: ts'
      · obtain ⟨ts', rfl⟩ := hr
        simp only [pArgs, Option.some.injEq, Prod.mk.injEq] at h
        obtain ⟨rfl, rfl⟩ := h
        exact ⟨trivial, by simp [Leavess], allGood_tail hg⟩
      · have hr' : ∀ ts', ts ≠ .rparen :: ts' := fun ts' e => hr ⟨ts', e⟩
        rw [pArgs_eq hr'] at h
        cases hu : pExpr u n 1 ts with
        | none => rw [hu] at h; simp at h
        | some z =>
          rw [hu] at h
          obtain ⟨y, rs⟩ := z
          obtain ⟨h1, h2, h3, h4, h5⟩ := iE _ _ _ _ hu (by omega) (by omega) hg
          have one : GoWFs u [y] ∧ Leavess P [y] := ⟨⟨h1, trivial⟩, by intro e he; simp at he; subst he; exact h2⟩
          simp only [] at h
          split at h
          · rename_i heq
            simp only [Option.some.injEq, Prod.mk.injEq] at heq h
            obtain ⟨rfl, rfl⟩ := heq
            obtain ⟨rfl, rfl⟩ := h
            exact ⟨one.1, one.2, allGood_tail h4⟩
          · rename_i heq
            simp only [Option.some.injEq, Prod.mk.injEq] at heq h
            obtain ⟨rfl, rfl⟩ := heq
            obtain ⟨rfl, rfl⟩ := h
            exact ⟨one.1, one.2, allGood_tail (allGood_tail h4)⟩
          · rename_i heq
            simp only [Option.some.injEq, Prod.mk.injEq] at heq h
            obtain ⟨rfl, rfl⟩ := heq
            obtain ⟨rfl, rfl⟩ := h
            exact ⟨one.1, one.2, allGood_tail (allGood_tail (allGood_tail h4))⟩
          · rename_i x' ts' heq
            simp only [Option.some.injEq, Prod.mk.injEq] at heq
            obtain ⟨rfl, rfl⟩ := heq
            cases hA : pArgs u n ts' with
            | none => rw [hA] at h; simp at h
            | some z =>
              rw [hA] at h
              obtain ⟨ys, r'⟩ := z
              simp only [Option.map_some, Option.some.injEq, Prod.mk.injEq] at h
              obtain ⟨rfl, rfl⟩ := h
              obtain ⟨g1, g2, g3⟩ := iA _ _ _ hA (allGood_tail h4)
              refine ⟨⟨h1, g1⟩, ?_, g3⟩
              intro e he
              rcases List.mem_cons.1 he with rfl | he
              · exact h2
              · exact g2 e he
          · simp at h

theorem parseToks_sound {u : GoVersion} {ts e} (hP1 : ∀ s, P (.ident s) → OneTok u s (.ident s))
    (hP2 : ∀ k s, P (.lit k s) → OneTok u s (.lit k s)) (hg : AllGood P ts) (h : parseToks u ts = some e) : GoWF u e ∧ Leaves P e := by
  unfold parseToks at h
  cases hE : pExpr u (4 * ts.length + 4) 1 ts with
  | none => rw [hE] at h; simp at h
  | some z =>
    obtain ⟨x, r⟩ := z
    obtain ⟨h1, h2, _⟩ := (p_sound u hP1 hP2 _).1 _ _ _ _ hE (by omega) (by omega) hg
    rw [hE] at h
    have : x = e := by
      split at h
      · rename_i heq; simp only [Option.some.injEq, Prod.mk.injEq] at heq h; rw [heq.1, h]
      · rename_i heq; simp only [Option.some.injEq, Prod.mk.injEq] at heq h; rw [heq.1, h]
      · simp at h
    subst this
    exact ⟨h1, h2⟩

end

mutual
theorem goWF_clean {u} : ∀ {e}, GoWF u e → GoClean e
  | .ident p n, h => by obtain ⟨rfl, -⟩ := h; exact ⟨rfl, rfl⟩
  | .basicLit p k v, h => by obtain ⟨rfl, -⟩ := h; exact ⟨rfl, rfl⟩
  | .paren p x q, h => by
    obtain ⟨rfl, rfl, hx⟩ := h
    have ih := goWF_clean hx
    exact ⟨ih.1, by rw [erasePos, ih.2]⟩
  | .unary p op x, h => by
    obtain ⟨rfl, _, hx, _⟩ := h
    have ih := goWF_clean hx
    exact ⟨ih.1, by rw [erasePos, ih.2]⟩
  | .star p x, h => by
    obtain ⟨rfl, hx, _⟩ := h
    have ih := goWF_clean hx
    exact ⟨ih.1, by rw [erasePos, ih.2]⟩
  | .binary x p op y, h => by
    obtain ⟨rfl, _, hx, _, hy, _⟩ := h
    have ih := goWF_clean hx
    have ih' := goWF_clean hy
    exact ⟨by simp [goSupported, ih.1, ih'.1], by rw [erasePos, ih.2, ih'.2]⟩
  | .call fn p args q r, h => by
    obtain ⟨rfl, rfl, rfl, hf, _, ha⟩ := h
    have ih := goWF_clean hf
    have ih' := goWFs_clean ha
    exact ⟨by simp [goSupported, ih.1, ih'.1], by rw [erasePos, ih.2, ih'.2]⟩
  | .selector x p s, h => by
    obtain ⟨rfl, hx, _⟩ := h
    have ih := goWF_clean hx
    exact ⟨ih.1, by rw [erasePos, ih.2]⟩
theorem goWFs_clean {u} : ∀ {es}, GoWFs u es → goSupporteds es = true ∧ erasePoss es = es
  | [], _ => ⟨rfl, rfl⟩
  | e :: es, h => by
    have ih := goWF_clean h.1
    have ih' := goWFs_clean h.2
    exact ⟨by simp [goSupporteds, ih.1, ih'.1], by rw [erasePoss, ih.2, ih'.2]⟩
end

end Verif.Proof

import Verif.Spec.Roundtrip
/-!
# The reference Go grammar: printed tokens are read back; whatever is read is well formed
-/
namespace Verif.Proof
open Verif Verif.Spec

/-- The tokens among the pieces. -/
def toksOf (ps : List Piece) : List GTok := ps.filterMap fun | .tok k => some k | .blank => none

@[simp] theorem toksOf_nil : toksOf [] = [] := rfl
@[simp] theorem toksOf_tok (k : GTok) (ps) : toksOf (.tok k :: ps) = k :: toksOf ps := rfl
@[simp] theorem toksOf_blank (ps) : toksOf (.blank :: ps) = toksOf ps := rfl
@[simp] theorem toksOf_append (a b : List Piece) : toksOf (a ++ b) = toksOf a ++ toksOf b := by simp [toksOf]

/-- Printed tokens of an expression. -/
abbrev gt (e : GoExpr) : List GTok := toksOf (pieces e)

theorem pArgs_eq {u : GoVersion} {n : Nat} {ts : List GTok} (h : ∀ ts', ts ≠ .rparen :: ts') : pArgs u (n + 1) ts =
    match pExpr u n 1 ts with
    | some (x, .rparen :: ts) => some ([x], ts)
    | some (x, .ellipsis :: .rparen :: ts) => some ([x], ts)
    | some (x, .ellipsis :: .comma :: .rparen :: ts) => some ([x], ts)
    | some (x, .comma :: ts) => (pArgs u n ts).map fun (xs, ts) => (x :: xs, ts)
    | _ => none := by
  cases ts with
  | nil => rfl
  | cons k ts => cases k <;> first | rfl | exact absurd rfl (h ts)

theorem pUnary_op (u : GoVersion) (n : Nat) (o : Tok) (ts) : pUnary u (n + 1) (.op o :: ts) =
    if o = .mul then (pUnary u n ts).map fun (x, ts) => (.star 0 x, ts)
    else if o ∈ unaryOps u then (pUnary u n ts).map fun (x, ts) => (.unary 0 o x, ts)
    else none := rfl
theorem pUnary_ident (u : GoVersion) (n : Nat) (s ts) : pUnary u (n + 1) (.ident s :: ts) = pSuffix u n (.ident 0 s) ts := rfl
theorem pUnary_lit (u : GoVersion) (n : Nat) (k s ts) : pUnary u (n + 1) (.lit k s :: ts) = pSuffix u n (.basicLit 0 k s) ts := rfl
theorem pUnary_lparen (u : GoVersion) (n : Nat) (ts) : pUnary u (n + 1) (.lparen :: ts) =
    match pExpr u n 1 ts with
    | some (x, .rparen :: ts) => pSuffix u n (.paren 0 x 0) ts
    | _ => none := rfl

/-! ## More fuel does no harm -/

theorem p_mono (u : GoVersion) : ∀ n,
    (∀ p ts r, pExpr u n p ts = some r → pExpr u (n + 1) p ts = some r) ∧
    (∀ p x ts r, pBinary u n p x ts = some r → pBinary u (n + 1) p x ts = some r) ∧
    (∀ ts r, pUnary u n ts = some r → pUnary u (n + 1) ts = some r) ∧
    (∀ x ts r, pSuffix u n x ts = some r → pSuffix u (n + 1) x ts = some r) ∧
    (∀ ts r, pArgs u n ts = some r → pArgs u (n + 1) ts = some r) := by
  intro n
  induction n with
  | zero => simp [pExpr, pBinary, pUnary, pSuffix, pArgs]
  | succ n ih =>
    obtain ⟨iE, iB, iU, iS, iA⟩ := ih
    refine ⟨?_, ?_, ?_, ?_, ?_⟩
    · intro p ts r h
      rw [pExpr] at h ⊢
      cases hu : pUnary u n ts with
      | none => rw [hu] at h; simp at h
      | some z => rw [hu] at h; rw [iU _ _ hu]; exact iB _ _ _ _ h
    · intro p x ts r h
      cases ts with
      | nil => simpa [pBinary] using h
      | cons k ts =>
        cases k with
        | op o =>
          rw [pBinary] at h ⊢
          split at h
          · rename_i hc
            rw [if_pos hc]
            cases hu : pExpr u n (o.level + 1) ts with
            | none => rw [hu] at h; simp at h
            | some z => rw [hu] at h; rw [iE _ _ _ hu]; exact iB _ _ _ _ h
          · rename_i hc; rw [if_neg hc]; exact h
        | _ => simpa [pBinary] using h
    · intro ts r h
      cases ts with
      | nil => simp [pUnary] at h
      | cons k ts =>
        cases k with
        | op o =>
          rw [pUnary_op] at h ⊢
          split at h
          · rename_i hc
            rw [if_pos hc]
            cases hu : pUnary u n ts with
            | none => rw [hu] at h; simp at h
            | some z => rw [hu] at h; rw [iU _ _ hu]; exact h
          · rename_i hc
            rw [if_neg hc]
            split at h
            · rename_i hc
              rw [if_pos hc]
              cases hu : pUnary u n ts with
              | none => rw [hu] at h; simp at h
              | some z => rw [hu] at h; rw [iU _ _ hu]; exact h
            · simp at h
        | ident s => rw [pUnary_ident] at h ⊢; exact iS _ _ _ h
        | lit l s => rw [pUnary_lit] at h ⊢; exact iS _ _ _ h
        | lparen =>
          rw [pUnary_lparen] at h ⊢
          cases hu : pExpr u n 1 ts with
          | none => rw [hu] at h; simp at h
          | some z =>
            rw [iE _ _ _ hu]
            rw [hu] at h
            obtain ⟨x, rs⟩ := z
            cases rs with
            | nil => simp at h
            | cons k rs => cases k <;> first | (simp at h; done) | exact iS _ _ _ h
        | _ => simp [pUnary] at h
    · intro x ts r h
      cases ts with
      | nil => simpa [pSuffix] using h
      | cons k ts =>
        cases k with
        | period =>
          cases ts with
          | nil => simp [pSuffix] at h
          | cons k2 ts =>
            cases k2 with
            | ident s => rw [pSuffix] at h ⊢; exact iS _ _ _ h
            | _ => simp [pSuffix] at h
        | lparen =>
          rw [pSuffix] at h ⊢
          cases hu : pArgs u n ts with
          | none => rw [hu] at h; simp at h
          | some z => rw [hu] at h; rw [iA _ _ hu]; exact iS _ _ _ h
        | _ => simpa [pSuffix] using h
    · intro ts r h
      by_cases hr : ∃ ts', ts = .rparen :: ts'
      · obtain ⟨ts', rfl⟩ := hr
        simpa [pArgs] using h
      · have hr' : ∀ ts', ts ≠ .rparen :: ts' := fun ts' e => hr ⟨ts', e⟩
        rw [pArgs_eq hr'] at h ⊢
        cases hu : pExpr u n 1 ts with
        | none => rw [hu] at h; simp at h
        | some z =>
          rw [iE _ _ _ hu]
          rw [hu] at h
          obtain ⟨x, rs⟩ := z
          simp only [] at h ⊢
          split at h
          · exact h
          · exact h
          · exact h
          · rename_i x' ts' heq
            simp only [Option.some.injEq, Prod.mk.injEq] at heq
            obtain ⟨rfl, rfl⟩ := heq
            cases hA : pArgs u n ts' with
            | none => rw [hA] at h; simp at h
            | some z => rw [hA] at h; simp only [iA _ _ hA]; exact h
          · simp at h

theorem le_of_step {α : Type} {f : Nat → Option α} (h : ∀ n r, f n = some r → f (n + 1) = some r) {n m : Nat} (hm : n ≤ m) {r} (hr : f n = some r) :
    f m = some r := by
  induction hm with
  | refl => exact hr
  | step _ ih => exact h _ _ ih

theorem pExpr_le {u n m p ts r} (hm : n ≤ m) (h : pExpr u n p ts = some r) : pExpr u m p ts = some r :=
  le_of_step (f := fun n => pExpr u n p ts) (fun n r => (p_mono u n).1 p ts r) hm h
theorem pBinary_le {u n m p x ts r} (hm : n ≤ m) (h : pBinary u n p x ts = some r) : pBinary u m p x ts = some r :=
  le_of_step (f := fun n => pBinary u n p x ts) (fun n r => (p_mono u n).2.1 p x ts r) hm h
theorem pUnary_le {u n m ts r} (hm : n ≤ m) (h : pUnary u n ts = some r) : pUnary u m ts = some r :=
  le_of_step (f := fun n => pUnary u n ts) (fun n r => (p_mono u n).2.2.1 ts r) hm h
theorem pSuffix_le {u n m x ts r} (hm : n ≤ m) (h : pSuffix u n x ts = some r) : pSuffix u m x ts = some r :=
  le_of_step (f := fun n => pSuffix u n x ts) (fun n r => (p_mono u n).2.2.2.1 x ts r) hm h
theorem pArgs_le {u n m ts r} (hm : n ≤ m) (h : pArgs u n ts = some r) : pArgs u m ts = some r :=
  le_of_step (f := fun n => pArgs u n ts) (fun n r => (p_mono u n).2.2.2.2 ts r) hm h

/-! ## Printed tokens are read back -/

/-- No selector or call follows. -/
def NoSuffix : List GTok → Prop
  | .period :: _ => False
  | .lparen :: _ => False
  | _ => True

/-- No operator that binds more tightly than `g` follows. -/
def ArgStops (g : Nat) : List GTok → Prop
  | .op o :: _ => o.level ≤ g
  | _ => True

theorem pSuffix_stop {u n x ts} (h : NoSuffix ts) : pSuffix u (n + 1) x ts = some (x, ts) := by
  cases ts with
  | nil => rfl
  | cons k ts => cases k <;> first | rfl | exact absurd h (by simp [NoSuffix])

theorem pBinary_stop {u n p x ts} (h : ∀ o ts', ts = .op o :: ts' → o.level < p) : pBinary u (n + 1) p x ts = some (x, ts) := by
  cases ts with
  | nil => rfl
  | cons k ts =>
    cases k with
    | op o =>
      have := h o ts rfl
      rw [pBinary, if_neg (by omega)]
    | _ => rfl

theorem pExpr_le' {u n m p ts r} (h : pExpr u n p ts = some r) (hm : n ≤ m) : pExpr u m p ts = some r := pExpr_le hm h

structure Fwd (u : GoVersion) (e : GoExpr) : Prop where
  pos : 1 ≤ (gt e).length
  prim : goPrec e = 7 → ∀ n rest r m, pSuffix u n e rest = some r → n + 4 * (gt e).length ≤ m + 2 → pUnary u m (gt e ++ rest) = some r
  un : 6 ≤ goPrec e → ∀ rest m, NoSuffix rest → 4 * (gt e).length ≤ m + 1 → pUnary u m (gt e ++ rest) = some (e, rest)
  bin : ∀ n p rest r m, p ≤ goPrec e → NoSuffix rest → ArgStops (goPrec e) rest → pBinary u n p e rest = some r →
    n + 4 * (gt e).length ≤ m → pExpr u m p (gt e ++ rest) = some r

theorem pBinary_pos {u n p x ts r} (h : pBinary u n p x ts = some r) : 1 ≤ n := by
  cases n with
  | zero => simp [pBinary] at h
  | succ n => omega

theorem fwd_of_un {u : GoVersion} {e : GoExpr} (hp : 1 ≤ (gt e).length) (hprim : goPrec e = 7 → ∀ n rest r m, pSuffix u n e rest = some r →
      n + 4 * (gt e).length ≤ m + 2 → pUnary u m (gt e ++ rest) = some r)
    (hu : ∀ rest m, NoSuffix rest → 4 * (gt e).length ≤ m + 1 → pUnary u m (gt e ++ rest) = some (e, rest)) : Fwd u e := by
  refine ⟨hp, hprim, fun _ => hu, ?_⟩
  intro n p rest r m _ hs _ hb hm
  have := pBinary_pos hb
  obtain ⟨k, rfl⟩ : ∃ k, m = k + 1 := ⟨m - 1, by omega⟩
  rw [pExpr, hu rest k hs (by omega)]
  exact pBinary_le (by omega) hb

theorem fwd_of_prim {u : GoVersion} {e : GoExpr} (hp : 1 ≤ (gt e).length) (hprim : ∀ n rest r m, pSuffix u n e rest = some r →
      n + 4 * (gt e).length ≤ m + 2 → pUnary u m (gt e ++ rest) = some r) : Fwd u e :=
  fwd_of_un hp (fun _ => hprim) fun rest m hs hm => hprim 1 rest _ m (pSuffix_stop hs) (by omega)

theorem pSuffix_pos {u n x ts r} (h : pSuffix u n x ts = some r) : 1 ≤ n := by
  cases n with
  | zero => simp [pSuffix] at h
  | succ n => omega

/-- An expression up to a token that is no operator. -/
theorem fwd_full {u : GoVersion} {e : GoExpr} (h : Fwd u e) (hg : 1 ≤ goPrec e) (rest : List GTok) (hs : NoSuffix rest) (ho : ∀ o ts, rest ≠ .op o :: ts) (m : Nat)
    (hm : 1 + 4 * (gt e).length ≤ m) : pExpr u m 1 (gt e ++ rest) = some (e, rest) := by
  refine h.bin 1 1 rest _ m hg hs ?_ (pBinary_stop ?_) hm
  · cases rest with
    | nil => trivial
    | cons k rest => cases k <;> first | trivial | exact absurd rfl (ho _ rest)
  · intro o ts e; exact absurd e (ho o ts)

theorem goWF_prec {u e} (h : GoWF u e) : 1 ≤ goPrec e := by
  cases e with
  | binary x p op y => exact h.2.1
  | _ => simp [goPrec]

/-- The tokens of an argument list. -/
theorem toks_args (u : GoVersion) (es : List GoExpr) : toksOf (argPieces es) = match es with
    | [] => []
    | e :: es => gt e ++ toksOf (argPiecesTail es) := by
  cases es <;> simp [argPieces]

/-- The arguments of a call. -/
def ArgsFwd (u : GoVersion) (es : List GoExpr) : Prop :=
  ∀ e0, Fwd u e0 → 1 ≤ goPrec e0 → ∀ rest m, 2 + 4 * ((gt e0).length + (toksOf (argPiecesTail es)).length) ≤ m →
    pArgs u m (gt e0 ++ toksOf (argPiecesTail es) ++ .rparen :: rest) = some (e0 :: es, rest)

theorem pArgs_some {u n ts z} (h : pExpr u n 1 ts = some z) : ∀ ts', ts ≠ .rparen :: ts' := by
  rintro ts' rfl
  cases n with
  | zero => simp [pExpr] at h
  | succ n =>
    rw [pExpr] at h
    cases n with
    | zero => simp [pUnary] at h
    | succ n => simp [pUnary] at h

mutual
theorem fwd (u : GoVersion) : ∀ e, GoWF u e → Fwd u e
  | .ident p n, h => by
    obtain ⟨rfl, -⟩ := h
    refine fwd_of_prim (by simp [gt, pieces]) ?_
    intro n rest r m hs hm
    simp only [gt, pieces, toksOf_tok, toksOf_nil, List.length_cons, List.length_nil] at hm
    have := pSuffix_pos hs
    obtain ⟨k, rfl⟩ : ∃ k, m = k + 1 := ⟨m - 1, by omega⟩
    exact pSuffix_le (by omega) hs
  | .basicLit p k v, h => by
    obtain ⟨rfl, -⟩ := h
    refine fwd_of_prim (by simp [gt, pieces]) ?_
    intro n rest r m hs hm
    simp only [gt, pieces, toksOf_tok, toksOf_nil, List.length_cons, List.length_nil] at hm
    have := pSuffix_pos hs
    obtain ⟨k, rfl⟩ : ∃ k, m = k + 1 := ⟨m - 1, by omega⟩
    exact pSuffix_le (by omega) hs
  | .paren p x q, h => by
    obtain ⟨rfl, rfl, hx⟩ := h
    have ih := fwd u x hx
    refine fwd_of_prim (by simp [gt, pieces]) ?_
    intro n rest r m hs hm
    simp only [gt, pieces, toksOf_tok, toksOf_append, toksOf_nil, List.length_cons, List.length_nil, List.length_append, List.cons_append] at hm ⊢
    have := pSuffix_pos hs
    obtain ⟨k, rfl⟩ : ∃ k, m = k + 1 := ⟨m - 1, by omega⟩
    have he := fwd_full ih (goWF_prec hx) (.rparen :: rest) trivial (by simp) k (by simp only [gt]; omega)
    rw [pUnary_lparen, List.append_assoc]
    simp only [gt] at he
    rw [List.cons_append, List.nil_append, he]
    exact pSuffix_le (by omega) hs
  | .unary p op x, h => by
    obtain ⟨rfl, ho, hx, hp⟩ := h
    have ih := fwd u x hx
    refine fwd_of_un (by simp [gt, pieces]) (by simp [goPrec]) ?_
    intro rest m hs hm
    simp only [gt, pieces, toksOf_tok, List.length_cons, List.cons_append] at hm ⊢
    obtain ⟨k, rfl⟩ : ∃ k, m = k + 1 := ⟨m - 1, by omega⟩
    have hne : op ≠ .mul := by rintro rfl; revert ho; cases u; rename_i t _ _; cases t <;> simp [unaryOps]
    rw [pUnary_op, if_neg hne, if_pos ho, ih.un hp rest k hs (by simp only [gt]; omega)]
    rfl
  | .star p x, h => by
    obtain ⟨rfl, hx, hp⟩ := h
    have ih := fwd u x hx
    refine fwd_of_un (by simp [gt, pieces]) (by simp [goPrec]) ?_
    intro rest m hs hm
    simp only [gt, pieces, toksOf_tok, List.length_cons, List.cons_append] at hm ⊢
    obtain ⟨k, rfl⟩ : ∃ k, m = k + 1 := ⟨m - 1, by omega⟩
    rw [pUnary_op, if_pos rfl, ih.un hp rest k hs (by simp only [gt]; omega)]
    rfl
  | .binary x p op y, h => by
    obtain ⟨rfl, h1, hx, hpx, hy, hpy⟩ := h
    have ihx := fwd u x hx
    have ihy := fwd u y hy
    have hg : gt (.binary x 0 op y) = gt x ++ .op op :: gt y := by
      simp only [gt, pieces]
      split <;> simp
    have hlt : op.level ≤ 5 := by cases op <;> simp [Tok.level]
    refine ⟨by rw [hg]; simp; omega, by simp [goPrec]; omega, by simp [goPrec]; omega, ?_⟩
    intro n q rest r m hq hs hst hb hm
    rw [hg] at hm ⊢
    simp only [goPrec] at hq hst
    simp only [List.length_append, List.length_cons] at hm
    have hn := pBinary_pos hb
    have hy' : pExpr u (n + 4 * (gt y).length + 1) (op.level + 1) (gt y ++ rest) = some (y, rest) := by
      refine ihy.bin 1 _ rest _ _ hpy hs ?_ (pBinary_stop ?_) (by omega)
      · cases rest with
        | nil => trivial
        | cons k rest =>
          cases k <;> try trivial
          simp only [ArgStops] at hst ⊢; omega
      · rintro o ts rfl
        simp only [ArgStops] at hst; omega
    have hxb : pBinary u (n + 4 * (gt y).length + 2) q x (.op op :: (gt y ++ rest)) = some r := by
      rw [pBinary, if_pos ⟨h1, hq⟩, hy']
      exact pBinary_le (by omega) hb
    have := ihx.bin _ q (.op op :: (gt y ++ rest)) r m (by omega) trivial hpx hxb (by omega)
    simpa using this
  | .call fn p args e q, h => by
    obtain ⟨rfl, rfl, rfl, hf, hpf, ha⟩ := h
    have ihf := fwd u fn hf
    refine fwd_of_prim (by have := ihf.pos; simp only [gt, pieces, toksOf_append, toksOf_tok, List.length_append, List.length_cons] at this ⊢; omega) ?_
    intro n rest r m hs hm
    simp only [gt, pieces, toksOf_tok, toksOf_append, toksOf_nil, List.length_cons, List.length_nil, List.length_append] at hm ⊢
    have hn := pSuffix_pos hs
    have hargs : pArgs u (n + 4 * (toksOf (argPieces args)).length + 2) (toksOf (argPieces args) ++ .rparen :: rest) = some (args, rest) := by
      cases args with
      | nil => simp [argPieces, pArgs]
      | cons a as =>
        simp only [argPieces, toksOf_append]
        exact (fwds_tail u as ha.2) a (fwd u a ha.1) (goWF_prec ha.1) rest _ (by simp only [gt, List.length_append]; omega)
    have hsuf : pSuffix u (n + 4 * (toksOf (argPieces args)).length + 3) fn (.lparen :: (toksOf (argPieces args) ++ .rparen :: rest)) = some r := by
      rw [pSuffix, hargs]
      exact pSuffix_le (by omega) hs
    have := ihf.prim hpf _ _ r m hsuf (by simp only [gt]; omega)
    simpa using this
  | .selector x p sel, h => by
    obtain ⟨rfl, hx, hpx, -⟩ := h
    have ih := fwd u x hx
    refine fwd_of_prim (by have := ih.pos; simp only [gt, pieces, toksOf_append, toksOf_tok, List.length_append, List.length_cons] at this ⊢; omega) ?_
    intro n rest r m hs hm
    simp only [gt, pieces, toksOf_tok, toksOf_append, toksOf_nil, List.length_cons, List.length_nil, List.length_append] at hm ⊢
    have hsuf : pSuffix u (n + 1) x (.period :: .ident sel :: rest) = some r := by rw [pSuffix]; exact hs
    have := ih.prim hpx _ _ r m hsuf (by simp only [gt]; omega)
    simpa using this
theorem fwds_tail (u : GoVersion) : ∀ es, GoWFs u es → ArgsFwd u es
  | [], _ => by
    intro e0 h0 hp rest m hm
    simp only [argPiecesTail, toksOf_nil, List.length_nil, Nat.add_zero, List.append_nil] at hm ⊢
    obtain ⟨k, rfl⟩ : ∃ k, m = k + 1 := ⟨m - 1, by omega⟩
    have := fwd_full h0 hp (.rparen :: rest) trivial (by simp) k (by omega)
    rw [pArgs_eq (pArgs_some this), this]
  | e :: es, h => by
    intro e0 h0 hp rest m hm
    have ih := fwds_tail u es h.2 e (fwd u e h.1) (goWF_prec h.1) rest
    simp only [argPiecesTail, toksOf_tok, toksOf_blank, toksOf_append, List.length_cons, List.length_append, List.cons_append, List.append_assoc] at hm ih ⊢
    obtain ⟨k, rfl⟩ : ∃ k, m = k + 1 := ⟨m - 1, by omega⟩
    have := fwd_full h0 hp (.comma :: (toksOf (pieces e) ++ (toksOf (argPiecesTail es) ++ .rparen :: rest))) trivial (by simp) k (by omega)
    rw [pArgs_eq (pArgs_some this), this]
    simp only []
    rw [ih k (by simp only [gt]; omega)]
    rfl
end

/-- The printed tokens of a well-formed tree are read back as the tree. -/
theorem parseToks_gt {u e} (h : GoWF u e) : parseToks u (gt e) = some e := by
  have := fwd_full (fwd u e h) (goWF_prec h) [] trivial (by simp) (4 * (gt e).length + 4) (by omega)
  rw [List.append_nil] at this
  rw [parseToks, this]

end Verif.Proof

import Verif.Proof.PegErrInv
import Verif.Proof.ParseRule
import Verif.Proof.GoTree
/-! # Error messages are truthful -/
namespace Verif.Proof
open Verif Verif.Spec

variable {G : Grammar} {data : List Sym}

/-- A state of the small machine for a detailed one. -/
def stOf (s : DSt) : St := ⟨s.pt.rest, s.frame, List.replicate s.errs.length .noMatch, []⟩

theorem stOf_rel {s : DSt} (h : PtAt data s.pt) : Rel data s (stOf s) := ⟨h, rfl, rfl, by simp [stOf]⟩

theorem dRun_ok {n e s v s'} (h : PtAt data s.pt) (hr : dRun G n e s = some (.ok v s')) :
    PtAt data s'.pt ∧ s'.pt.rest <:+ s.pt.rest := by
  have := (rel_all G n).1 e _ _ (stOf_rel h)
  rw [hr] at this
  generalize hy : run G n e (stOf s) = y at this
  cases this with
  | ok k =>
    have := run_suffix hy
    exact ⟨k.1, by have := this; simp only [After] at this; rw [k.2] at this; exact this⟩

theorem dRun_fail {n e s s'} (h : PtAt data s.pt) (hr : dRun G n e s = some (.fail s')) :
    PtAt data s'.pt ∧ s'.pt.rest <:+ s.pt.rest := by
  have := (rel_all G n).1 e _ _ (stOf_rel h)
  rw [hr] at this
  generalize hy : run G n e (stOf s) = y at this
  cases this with
  | fail k =>
    have := run_suffix hy
    exact ⟨k.1, by have := this; simp only [After] at this; rw [k.2] at this; exact this⟩

theorem slice_runes {start cur : List Sym} {raw : List Sym} (h : start = raw ++ cur) : sliceFrom start cur = raw.map Sym.rune := by
  subst h
  unfold sliceFrom
  rw [List.length_append, Nat.add_sub_cancel, List.take_append_of_le_length (Nat.le_refl _), List.take_length]

/-- The text of an action stands at the place where its match started. -/
theorem slice_stands {n e s v s'} (h : PtAt data s.pt) (hr : dRun G n e s = some (.ok v s')) :
    ∃ k, k ≤ data.length ∧ s.pt.pos = place data k ∧ StandsAt data k (s'.sliceFrom s.pt) := by
  obtain ⟨h', raw, e'⟩ := dRun_ok h hr
  obtain ⟨pre, hd, hp⟩ := h
  refine ⟨pre.length, by rw [hd]; simp, hp, s'.pt.rest.map Sym.rune, ?_⟩
  rw [DSt.sliceFrom, slice_runes e'.symm, ← List.map_append, e', hd]
  simp

/-- A one-character literal matches one symbol. -/
theorem dLit_one {n c s v s'} (h : dRun G n (.lit [c]) s = some (.ok v s')) : ∃ x, s.pt.rest = x :: s'.pt.rest ∧ x.rune = c := by
  cases n with
  | zero => simp [dRun] at h
  | succ n =>
    simp only [dRun, Option.some.injEq, dLit] at h
    cases hr : s.pt.rest with
    | nil => simp [hr] at h
    | cons x r =>
      simp only [hr] at h
      split at h
      · rename_i hx
        simp only [DOut.ok.injEq] at h
        refine ⟨x, ?_, hx⟩
        rw [← h.2]
        simp [advance_rest, hr]
      · simp at h

theorem dSeq_cons_ok {n start e es vs s v s'} (h : dSeq G n start (e :: es) vs s = some (.ok v s')) :
    ∃ m v1 s1, n = m + 1 ∧ dRun G m e s = some (.ok v1 s1) ∧ dSeq G m start es (vs ++ [v1]) s1 = some (.ok v s') := by
  cases n with
  | zero => simp [dSeq] at h
  | succ n =>
    rw [dSeq] at h
    match hx : dRun G n e s with
    | none => rw [hx] at h; simp at h
    | some (.ok v1 s1) => rw [hx] at h; exact ⟨n, v1, s1, rfl, hx, h⟩
    | some (.fail s1) => rw [hx] at h; simp at h
    | some (.panic s1) => rw [hx] at h; simp at h

theorem dSeq_nil_ok {n start vs s v s'} (h : dSeq G n start [] vs s = some (.ok v s')) : v = .list vs ∧ s' = s := by
  cases n with
  | zero => simp [dSeq] at h
  | succ n =>
    simp only [dSeq, Option.some.injEq, DOut.ok.injEq] at h
    exact ⟨h.1.symm, h.2.symm⟩

theorem dRun_seq_ok {n es s v s'} (h : dRun G n (.seq es) s = some (.ok v s')) : ∃ m, n = m + 1 ∧ dSeq G m s.pt es [] s = some (.ok v s') := by
  cases n with
  | zero => simp [dRun] at h
  | succ n => exact ⟨n, rfl, by simpa only [dRun] using h⟩

/-- Bracketed text. -/
theorem bracketed {n a b m s v s'} (hp : PtAt data s.pt) (h : dRun G n (.seq [.lit [a], m, .lit [b]]) s = some (.ok v s')) :
    s'.sliceFrom s.pt = a :: inner (s'.sliceFrom s.pt) ++ [b] := by
  obtain ⟨n, rfl, h⟩ := dRun_seq_ok h
  obtain ⟨n, v1, s1, rfl, h1, h⟩ := dSeq_cons_ok h
  obtain ⟨n, v2, s2, rfl, h2, h⟩ := dSeq_cons_ok h
  obtain ⟨n, v3, s3, rfl, h3, h⟩ := dSeq_cons_ok h
  obtain ⟨-, rfl⟩ := dSeq_nil_ok h
  obtain ⟨x, e1, hx⟩ := dLit_one h1
  obtain ⟨y, e3, hy⟩ := dLit_one h3
  obtain ⟨-, mid, e2⟩ := dRun_ok (dRun_ok hp h1).1 h2
  have : s.pt.rest = (x :: mid ++ [y]) ++ s'.pt.rest := by rw [e1, ← e2, e3]; simp
  rw [DSt.sliceFrom, slice_runes this]
  have : (x :: mid ++ [y]).map Sym.rune = a :: mid.map Sym.rune ++ [b] := by simp [hx, hy]
  rw [this]
  simp [inner]

/-! ## The invariant -/

/-- All errors so far are truthful. -/
def AllTrue (lib : GoLib) (data : List Sym) (s : DSt) : Prop := PtAt data s.pt ∧ ∀ e ∈ s.errs, Truthful lib data e

theorem ptAt_index {pt : Pt} (h : PtAt data pt) : ∃ k, k ≤ data.length ∧ pt.pos = place data k ∧ data.drop k = pt.rest := by
  obtain ⟨pre, hd, hp⟩ := h
  exact ⟨pre.length, by rw [hd]; simp, hp, by rw [hd]; simp⟩

theorem allTrue_noteBad {lib} {s : DSt} (h : AllTrue lib data s) : AllTrue lib data s.noteBad := by
  unfold DSt.noteBad
  split
  · rename_i b r hr
    refine ⟨h.1, ?_⟩
    simp only [addErrAt_errs, List.mem_append, List.mem_singleton]
    rintro e (he | rfl)
    · exact h.2 e he
    · obtain ⟨k, hk, hp, hd⟩ := ptAt_index h.1
      rw [hp]
      refine .encoding (b := b) ?_
      rw [hr] at hd
      have : (data.drop k)[0]? = some (.bad b) := by rw [hd]; rfl
      simpa using this
  · exact h

theorem not_go_of_err {lib t w x} (h : viaGo lib t w = .err x) : ¬ ∃ e, GoText lib t e := by
  rintro ⟨e, he⟩
  rw [viaGo, goexprParse_ok_iff.2 he] at h
  cases h

theorem allTrue_inv (lib : GoLib) (data : List Sym) : DInv (ruleGrammar lib) data (AllTrue lib data) where
  plain := plain_rules
  at_ := fun s h => h.1
  failAt := fun s pt b w h _ _ => ⟨by simpa using h.1, by simpa using h.2⟩
  read := fun s h hne => allTrue_noteBad ⟨ptAt_advance h.1 hne, h.2⟩
  pt := fun s pt h hp => ⟨hp, h.2⟩
  frame := fun s fr h => h
  flip := fun s h => h
  rstack := fun s rs h => h
  action := by
    intro n r rs a e s v s' hmem hs hs' h hrun h' x hact
    refine ⟨h'.1, ?_⟩
    simp only [addErrAt_errs, List.mem_append, List.mem_singleton]
    rintro er (he | rfl)
    · exact h'.2 er he
    obtain ⟨k, hk, hp, hst⟩ := slice_stands h.1 hrun
    rw [hp, hs']
    simp only [List.head?_cons]
    have hgo : ∀ t w, viaGo lib t w = .err x → ¬ ∃ e, GoText lib t e := fun t w => not_go_of_err
    have noP : ∀ o, orPanic o ≠ .err x := by intro o; cases o <;> simp [orPanic]
    cases r with
    | File =>
      simp only [ruleGrammar, gRules, gFile, g_, gSkip, actsOf, actsOfs, List.append_nil, List.mem_singleton, Prod.mk.injEq, List.nil_append] at hmem
      obtain ⟨rfl, rfl⟩ := hmem
      exact absurd hact (noP _)
    | Rule =>
      simp only [ruleGrammar, gRules, gRule, g_, g__, gSkip, gCondition, gBlock, actsOf, actsOfs, List.append_nil, List.nil_append, List.cons_append, List.mem_cons, List.not_mem_nil,
        or_false, Prod.mk.injEq] at hmem
      rcases hmem with ⟨rfl, rfl⟩ | ⟨rfl, rfl⟩ | ⟨rfl, rfl⟩
      · exact absurd hact (noP _)
      · refine .go (.condition hst ?_ (hgo _ _ hact))
        exact trimmed_trim _
      · cases hact
    | Value =>
      simp only [ruleGrammar, gRules, gValue, actsOf, actsOfs, List.append_nil, List.not_mem_nil] at hmem
    | SExpr =>
      simp only [ruleGrammar, gRules, gSExpr, g_, g__, gSkip, gIdent, gOp, gOpAlt, gOpPart, gLower, gWord, actsOf, actsOfs, List.append_nil, List.nil_append, List.cons_append, List.mem_cons, List.not_mem_nil,
        or_false, Prod.mk.injEq] at hmem
      rcases hmem with ⟨rfl, rfl⟩ | ⟨rfl, rfl⟩ | ⟨rfl, rfl⟩ | ⟨rfl, rfl⟩ | ⟨rfl, rfl⟩ | ⟨rfl, rfl⟩ | ⟨rfl, rfl⟩
      · exact .operand hk
      · cases hact
      · exact absurd hact (noP _)
      · cases hact
      · exact absurd hact (noP _)
      · cases hact
      · cases hact
    | Operand =>
      simp only [ruleGrammar, gRules, gOperand, gType, gAuxInt, gAux, actsOf, actsOfs, List.append_nil, List.nil_append, List.cons_append, List.mem_cons, List.not_mem_nil,
        or_false, Prod.mk.injEq] at hmem
      rcases hmem with ⟨rfl, rfl⟩ | ⟨rfl, rfl⟩ | ⟨rfl, rfl⟩
      · cases hact
      · rw [bracketed h.1 hrun] at hst
        exact .go (.auxInt hst (hgo _ _ hact))
      · rw [bracketed h.1 hrun] at hst
        exact .go (.aux hst (hgo _ _ hact))
    | Expr =>
      simp only [ruleGrammar, gRules, gExpr, gIdent, gLower, gWord, actsOf, actsOfs, List.append_nil, List.nil_append, List.cons_append, List.mem_cons, List.not_mem_nil,
        or_false, Prod.mk.injEq] at hmem
      rcases hmem with ⟨rfl, rfl⟩ | ⟨rfl, rfl⟩
      · cases hact
      · cases hact
    | Call =>
      simp only [ruleGrammar, gRules, gCall, g_, gSkip, gLower, gWord, actsOf, actsOfs, List.append_nil, List.nil_append, List.cons_append, List.mem_cons, List.not_mem_nil,
        or_false, Prod.mk.injEq] at hmem
      obtain ⟨rfl, rfl⟩ := hmem
      exact .go (.call hst (hgo _ _ hact))

end Verif.Proof

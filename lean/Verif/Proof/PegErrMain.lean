import Verif.Proof.PegErrLocal
import Verif.Proof.DecodePrefix
import Verif.Proof.ParseMain
/-! # From the detailed machine to the errors of `parse.String` -/
namespace Verif.Proof
open Verif Verif.Spec

section
variable {lib : GoLib} {order : List Str → List Str} {T : Texts} {filename : Str} {bs : List UInt8}

theorem dfile_terminates (lib : GoLib) (bs : List UInt8) (n : Nat) (hn : depthBound bs.length ≤ n) :
    ∃ o, dRun (ruleGrammar lib) n (.ruleRef .File) (dInit (decode bs)) = some o := by
  have h := (rel_all (ruleGrammar lib) n).1 (.ruleRef .File) _ _ (dInit_rel (decode bs))
  have ht := file_terminates lib bs n hn
  generalize dRun (ruleGrammar lib) n (.ruleRef .File) (dInit (decode bs)) = x at *
  generalize run (ruleGrammar lib) n (.ruleRef .File) (initSt (decode bs)) = y at *
  cases h with
  | none => exact absurd rfl ht
  | ok k => exact ⟨_, rfl⟩
  | panic k => exact ⟨_, rfl⟩
  | fail k => exact ⟨_, rfl⟩

/-- The errors before `dedupe`, given the outcome of the machine. -/
def outErrs (order : List Str → List Str) : DOut → List PError
  | .ok _ s => s.errs
  | .fail s => if s.errs.isEmpty then [⟨.noMatch (expectedList order s.maxFailExpected), s.maxFailPos, s.rstack.head?⟩] else s.errs
  | .panic s => s.errs ++ [⟨.panicked, s.pt.pos, s.rstack.head?⟩]

theorem dParse_out {n data o} (G : Grammar) (h : dRun G n (.ruleRef .File) (dInit data) = some o) : ∃ v, dParse order G n data = some (v, outErrs order o) := by
  unfold dParse
  rw [h]
  cases o with
  | ok v s => exact ⟨v, rfl⟩
  | panic s => exact ⟨_, rfl⟩
  | fail s =>
    refine ⟨.nil, ?_⟩
    simp only [outErrs]
    split
    · rename_i he
      have : s.errs = [] := by simpa using he
      simp [DSt.addErrAt, this]
    · rfl

def toParsed (T : Texts) (filename : Str) : Option (Dyn × List PError) → Parsed
  | some (.file f, []) => .file f
  | some (_, e :: es) => .errors (dedupe (PError.text T filename) [] (e :: es))
  | _ => .panic

theorem parseFull_eq : parseFull lib T order filename bs = toParsed T filename (dParse order (ruleGrammar lib) (depthBound bs.length) (decode bs)) := by
  unfold parseFull
  generalize dParse order (ruleGrammar lib) (depthBound bs.length) (decode bs) = x
  rfl

/-- `parse.String` with the texts of errors against `parse.String` without. -/
theorem full_spec (lib : GoLib) (T : Texts) (order : List Str → List Str) (filename : Str) (bs : List UInt8) :
    (∃ f, parseBytes lib bs = .ok f ∧ parseFull lib T order filename bs = .file f) ∨
    (∃ e, parseBytes lib bs = .err e) ∧ ∃ v x xs, dParse order (ruleGrammar lib) (depthBound bs.length) (decode bs) = some (v, x :: xs) ∧
      parseFull lib T order filename bs = .errors (dedupe (PError.text T filename) [] (x :: xs)) := by
  obtain ⟨o, ho⟩ := file_run lib bs
  rcases dParse_rel order (ruleGrammar lib) (depthBound bs.length) (decode bs) with ⟨h, -⟩ | ⟨v, errs, errs', asked, h1, h2, h3⟩
  · rw [parseSyms, ho] at h; cases o <;> simp at h
  · have hp : parseBytes lib bs = castFile (v, errs, asked) := by rw [parseBytes, parseDepth, h1]; rfl
    have hne := parse_ne_panic lib bs
    rw [hp] at hne ⊢
    rw [parseFull_eq, h2]
    clear h1 hp ho h2
    cases errs with
    | nil =>
      have : errs' = [] := List.length_eq_zero_iff.1 h3.symm
      subst this
      cases v <;> first | exact absurd rfl hne | skip
      rename_i f
      exact .inl ⟨f, rfl, rfl⟩
    | cons x l =>
      obtain ⟨y, l', rfl⟩ : ∃ y l', errs' = y :: l' := by
        cases errs' with
        | nil => simp at h3
        | cons y l' => exact ⟨y, l', rfl⟩
      refine .inr ⟨⟨_, by cases v <;> rfl⟩, v, y, l', rfl, ?_⟩
      cases v <;> rfl

theorem terminal_head {rest m w} (h : Terminal rest m w) : ∃ c r, w = c :: r ∧ c ≠ '!' ∧ c ≠ 'E' := by
  cases h with
  | literal _ h => exact ⟨'"', _, rfl, by decide, by decide⟩
  | cls _ h => exact ⟨'[', _, rfl, by decide, by decide⟩
  | any h => exact ⟨'.', _, rfl, by decide, by decide⟩

theorem missing_expected {order rest l} (ho : Reorders order) (h : ∀ w ∈ l, RawMissing rest w) : ∀ w ∈ expectedList order l, Missing (rest.map Sym.rune) w := by
  obtain ⟨ws, -, hw, he⟩ := expected_sorted ho l
  have hws : ∀ w ∈ ws, Missing (rest.map Sym.rune) w := by
    intro w k
    rcases h w ((hw w).1 k).1 with t | ⟨w', rfl, t⟩
    · obtain ⟨e, c, l, rfl, hc⟩ := terminal_follows t
      exact .absent hc e
    · exact .present (terminal_follows t).1
  rcases he with ⟨hm, e⟩ | ⟨-, e⟩ <;> rw [e]
  · intro w k
    rcases List.mem_append.1 k with k | k
    · exact hws w k
    · rw [List.mem_singleton] at k
      subst k
      refine .eof ?_
      rcases h _ hm with t | ⟨w', e', t⟩
      · obtain ⟨c, r, e1, e2, -⟩ := terminal_head t
        cases e1; exact absurd rfl e2
      · cases e'
        have := (terminal_follows t).1
        intro k
        rw [k] at this
        cases this
  · exact hws

theorem expected_ne {order l} (ho : Reorders order) (h : l ≠ []) : expectedList order l ≠ [] := by
  obtain ⟨ws, -, hw, he⟩ := expected_sorted ho l
  rcases he with ⟨hm, e⟩ | ⟨hm, e⟩ <;> rw [e]
  · simp
  · cases l with
    | nil => exact absurd rfl h
    | cons x l =>
      have : x ∈ ws := (hw x).2 ⟨List.mem_cons_self, fun k => hm (k ▸ List.mem_cons_self)⟩
      exact List.ne_nil_of_mem this

theorem allTrue_init (lib : GoLib) (data : List Sym) : AllTrue lib data (dInit data) := by
  refine allTrue_noteBad ⟨?_, by simp⟩
  have := dInit_at data
  simpa only [dInit, dnoteBad_pt] using this

/-- All errors are truthful. -/
theorem outErrs_true {n data o} (ho : Reorders order) (h : dRun (ruleGrammar lib) n (.ruleRef .File) (dInit data) = some o) :
    ∀ e ∈ outErrs order o, Truthful lib data e := by
  have hinv := (allTrue_inv lib data).rule n .File (allTrue_init lib data)
  rw [h] at hinv
  cases o with
  | ok v s => exact hinv.1.2
  | panic s =>
    intro e he
    rcases List.mem_append.1 he with he | he
    · exact hinv.1.2 e he
    · rw [List.mem_singleton] at he
      subst he
      obtain ⟨k, hk, hp, -⟩ := ptAt_index hinv.1.1
      rw [hp]
      cases hr : s.rstack with
      | nil => exact absurd hr hinv.2
      | cons r rs => exact .panicked hk
  | fail s =>
    intro e he
    simp only [outErrs] at he
    split at he
    · rw [List.mem_singleton] at he
      subst he
      obtain ⟨h1, -, h3, k, hk, hp, hw⟩ := file_fail h
      rw [h3, hp]
      exact .noMatch hk (expected_ne ho h1) (missing_expected ho hw)
    · exact hinv.1.2 e he

/-- "no match found" is the only error, if it is reported. -/
theorem noMatch_alone {n data o e exp} (h : dRun (ruleGrammar lib) n (.ruleRef .File) (dInit data) = some o) (he : e ∈ outErrs order o) (hp : e.problem = .noMatch exp) :
    ∃ s, o = .fail s ∧ s.errs = [] ∧ e = ⟨.noMatch (expectedList order s.maxFailExpected), s.maxFailPos, s.rstack.head?⟩ := by
  have inv : DInv (ruleGrammar lib) data (fun s => PtAt data s.pt ∧ ∀ e ∈ s.errs, ∀ x, e.problem ≠ .noMatch x) :=
    { plain := plain_rules
      at_ := fun s h => h.1
      failAt := fun s pt b w h _ _ => ⟨by simpa using h.1, by simpa using h.2⟩
      read := fun s h hne => by
        refine ⟨by simpa using ptAt_advance h.1 hne, ?_⟩
        simp only [DSt.read, DSt.noteBad]
        split
        · simp only [addErrAt_errs, List.mem_append, List.mem_singleton]
          rintro e (he | rfl) x
          · exact h.2 e he x
          · simp
        · exact h.2
      pt := fun s pt h hp => ⟨hp, h.2⟩
      frame := fun s fr h => h
      flip := fun s h => h
      rstack := fun s rs h => h
      action := fun n r rs a e s v s' _ _ _ _ _ h' x _ => by
        refine ⟨h'.1, ?_⟩
        simp only [addErrAt_errs, List.mem_append, List.mem_singleton]
        rintro e (he | rfl) x
        · exact h'.2 e he x
        · simp only [actionProblem]; split <;> simp }
  have h0 : PtAt data (dInit data).pt ∧ ∀ e ∈ (dInit data).errs, ∀ x, e.problem ≠ .noMatch x := by
    refine ⟨dInit_at data, ?_⟩
    simp only [dInit, DSt.noteBad]
    split
    · simp
    · simp
  have := inv.rule n .File h0
  rw [h] at this
  cases o with
  | ok v s => exact absurd hp (this.1.2 e he exp)
  | panic s =>
    rcases List.mem_append.1 he with he | he
    · exact absurd hp (this.1.2 e he exp)
    · rw [List.mem_singleton] at he; subst he; cases hp
  | fail s =>
    simp only [outErrs] at he
    split at he
    · rename_i hs
      exact ⟨s, rfl, by simpa using hs, by simpa using he⟩
    · exact absurd hp (this.1.2 e he exp)

/-! ## Locality -/

theorem widths_take_le (p : List Sym) (k : Nat) : (p.map Sym.width).sum ≤ ((p.take k).map Sym.width).sum + 4 * (p.length - k) := by
  induction p generalizing k with
  | nil => simp
  | cons x p ih =>
    cases k with
    | zero =>
      have := ih 0
      have := width_le x
      simp at *
      omega
    | succ k =>
      have := ih k
      simp at *
      omega

theorem common_of {p r1 : List Sym} {o : Nat} (h : o + 13 ≤ (p.map Sym.width).sum) : Common (p ++ r1) r1 o := by
  intro pt ⟨pre, e, hp⟩ ho
  have ho' : (pre.map Sym.width).sum ≤ o := by
    rw [hp, e, place_offset] at ho; exact ho
  -- otherwise `pre` contains all but three symbols of `p`
  refine Nat.le_of_not_lt fun hlt => ?_
  have hlen := congrArg List.length e
  simp only [List.length_append] at hlen
  have hpre : (p.take (p.length - 3)) <+: pre := by
    have h1 : p.take (p.length - 3) <+: p ++ r1 := (List.take_prefix _ _).trans (List.prefix_append _ _)
    have h2 : pre <+: p ++ r1 := by rw [e]; exact List.prefix_append _ _
    exact List.prefix_of_prefix_length_le h1 h2 (by simp; omega)
  obtain ⟨t, ht⟩ := hpre
  have a := widths_take_le p (p.length - 3)
  have b : ((p.take (p.length - 3)).map Sym.width).sum ≤ (pre.map Sym.width).sum := by rw [← ht]; simp
  omega

theorem near_init {p r1 r2 : List Sym} (hp : p ≠ []) : Near r1 r2 1 (dInit (p ++ r1)) (dInit (p ++ r2)) := by
  cases p with
  | nil => exact absurd rfl hp
  | cons x p =>
    simp only [dInit, List.cons_append]
    refine Near.noteBad (m := 0) ?_
    refine ⟨⟨x :: p, by simp, ?_, ?_⟩, rfl⟩
    · simp only; split <;> rfl
    · simp only; split <;> rfl

/-- Nothing that stands 16 bytes after the position of "no match found", or later, matters. -/
theorem local_fail {n data1 data2 p r1 r2 s1} (h1 : data1 = p ++ r1) (h2 : data2 = p ++ r2)
    (hw : s1.maxFailPos.offset + 13 ≤ (p.map Sym.width).sum)
    (h : dRun (ruleGrammar lib) n (.ruleRef .File) (dInit data1) = some (.fail s1)) :
    ∃ s2, dRun (ruleGrammar lib) n (.ruleRef .File) (dInit data2) = some (.fail s2) ∧ s2.errs = s1.errs ∧ s2.maxFailPos = s1.maxFailPos ∧
      s2.maxFailExpected = s1.maxFailExpected ∧ s2.rstack = s1.rstack := by
  subst h1 h2
  have hp : p ≠ [] := by rintro rfl; simp at hw
  have := (loc_all (G := ruleGrammar lib) simple_rules (common_of hw) n).1 (.ruleRef .File) _ _ rfl (tidy_init (p ++ r1)) (near_init (r2 := r2) hp)
  rw [h] at this
  obtain ⟨s2, e2, k⟩ := this (Nat.le_refl _)
  exact ⟨s2, e2, k.errs_eq, k.max_eq, k.exp_eq, k.rstack_eq⟩

end
end Verif.Proof

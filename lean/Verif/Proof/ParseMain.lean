import Verif.Proof.ParseFile
import Verif.Proof.Utf8
/-!
# From the machine to `parse.String`
-/
namespace Verif.Proof
open Verif Verif.Spec

section
variable {lib : GoLib}

theorem initSt_ok (cs : Str) : initSt (cs.map Sym.ok) = st cs Frame.empty [] := noteBad_st cs Frame.empty []

/-- The machine returns with depth `depthBound`. -/
theorem file_run (lib : GoLib) (bs : List UInt8) :
    ∃ o, run (ruleGrammar lib) (depthBound bs.length) (.ruleRef .File) (initSt (decode bs)) = some o := by
  cases h : run (ruleGrammar lib) (depthBound bs.length) (.ruleRef .File) (initSt (decode bs)) with
  | none => exact absurd h (file_terminates lib bs _ (Nat.le_refl _))
  | some o => exact ⟨o, rfl⟩

/-- `parse.String` in terms of the outcome of the machine. -/
theorem parse_ok_iff {bs f} : parseBytes lib bs = .ok f ↔
    ∃ s, run (ruleGrammar lib) (depthBound bs.length) (.ruleRef .File) (initSt (decode bs)) = some (.ok (.file f) s) ∧ s.errs = [] := by
  obtain ⟨o, ho⟩ := file_run lib bs
  rw [parseBytes, parseDepth, parseSyms, ho]
  cases o with
  | fail s =>
    simp only [Option.map_some, Option.getD_some]
    constructor
    · intro h
      by_cases he : s.errs.isEmpty
      · simp [he, castFile] at h
      · simp only [he] at h
        cases hs : s.errs with
        | nil => simp [hs] at he
        | cons a b => simp [hs, castFile] at h
    · rintro ⟨s', h, -⟩; simp at h
  | panic s =>
    simp only [Option.map_some, Option.getD_some]
    constructor
    · intro h
      cases hs : s.errs with
      | nil => simp [hs, castFile] at h
      | cons a b => simp [hs, castFile] at h
    · rintro ⟨s', h, -⟩; simp at h
  | ok v s =>
    simp only [Option.map_some, Option.getD_some, Option.some.injEq, POut.ok.injEq]
    constructor
    · intro h
      cases hs : s.errs with
      | cons a b => rw [hs] at h; cases v <;> simp [castFile] at h
      | nil =>
        rw [hs] at h
        cases v <;> simp [castFile] at h
        subst h
        exact ⟨s, ⟨rfl, rfl⟩, hs⟩
    · rintro ⟨s', ⟨rfl, rfl⟩, hs⟩
      rw [hs]; rfl

theorem parse_iff_exec {cs f} : parseBytes lib (utf8 cs) = .ok f ↔
    ∃ cs' fr', exec (ruleGrammar lib) (.ruleRef .File) cs Frame.empty = .ok (.file f) cs' fr' := by
  rw [parse_ok_iff, decode_utf8, initSt_ok]
  constructor
  · rintro ⟨s, h, hs⟩
    have := (sim (ruleGrammar lib) (depthBound (utf8 cs).length)).1 (.ruleRef .File) cs Frame.empty []
    rw [h] at this
    cases hc : runC (ruleGrammar lib) (depthBound (utf8 cs).length) (.ruleRef .File) cs Frame.empty with
    | none => rw [hc] at this; simp [Sim] at this
    | some o =>
      rw [hc] at this
      cases o with
      | fail => obtain ⟨_, _, h⟩ := this; simp at h
      | abort =>
        rcases this with h | ⟨o, ho, hd⟩
        · simp at h
        · simp at ho; subst ho; exact absurd hs hd
      | ok v cs' fr' =>
        obtain ⟨asked, ho⟩ := this
        simp at ho
        obtain ⟨rfl, -⟩ := ho
        exact ⟨cs', fr', lim_eq (runF_mono _ _ _ _) hc⟩
  · rintro ⟨cs', fr', h⟩
    obtain ⟨n, hn⟩ := lim_spec h (by simp)
    have := (sim (ruleGrammar lib) n).1 (.ruleRef .File) cs Frame.empty []
    have hn : runC (ruleGrammar lib) n (.ruleRef .File) cs Frame.empty = _ := hn
    rw [hn] at this
    obtain ⟨asked, ho⟩ := this
    obtain ⟨o, hN⟩ := file_run lib (utf8 cs)
    rw [decode_utf8, initSt_ok] at hN
    have := run_det _ hN ho
    subst this
    exact ⟨_, hN, rfl⟩

/-- Every accepted text is in the language, with the file it denotes. -/
theorem parse_sound {cs f} (h : parseBytes lib (utf8 cs) = .ok f) : FileText (goText lib) cs f.rules := by
  obtain ⟨cs', fr', h⟩ := parse_iff_exec.1 h
  obtain ⟨-, rs, hv, hf⟩ := file_sound h
  simp at hv; subst hv
  exact hf

/-- Every text in the language is accepted. -/
theorem parse_complete (hl : RejectsComment lib) {cs rs} (h : FileText (goText lib) cs rs) :
    parseBytes lib (utf8 cs) = .ok { rules := rs } :=
  parse_iff_exec.2 ⟨_, _, file_fwd hl h Frame.empty⟩

/-! ## Invalid UTF-8 -/

theorem run_action_inv {G n a e s v s'} (h : run G n (.action a e) s = some (.ok v s')) :
    ∃ m v1 s1, run G m e s = some (.ok v1 s1) ∧ s'.pos = s1.pos ∧ s1.errs <+: s'.errs := by
  cases n with
  | zero => simp [run] at h
  | succ n =>
    rw [run] at h
    cases hr : run G n e s with
    | none => rw [hr] at h; simp at h
    | some o =>
      rw [hr] at h
      cases o with
      | fail _ => simp at h
      | panic _ => simp at h
      | ok v1 s1 =>
        refine ⟨n, v1, s1, hr, ?_⟩
        simp only [Option.some.injEq] at h
        obtain ⟨l, m, rfl⟩ := runAction_ok h
        exact ⟨rfl, List.prefix_append _ _⟩

theorem runSeq_last {G n start e es vs s v s'} (h : runSeq G n start (es ++ [e]) vs s = some (.ok v s')) :
    ∃ m v1 s1, run G m e s1 = some (.ok v1 s') := by
  induction es generalizing n vs s with
  | nil =>
    cases n with
    | zero => simp [runSeq] at h
    | succ n =>
      simp only [List.nil_append, runSeq] at h
      cases hr : run G n e s with
      | none => rw [hr] at h; simp at h
      | some o =>
        rw [hr] at h
        cases o with
        | fail _ => simp at h
        | panic _ => simp at h
        | ok v1 s1 =>
          cases n with
          | zero => simp [runSeq] at h
          | succ n => simp [runSeq] at h; obtain ⟨-, rfl⟩ := h; exact ⟨_, _, _, hr⟩
  | cons e' es ih =>
    cases n with
    | zero => simp [runSeq] at h
    | succ n =>
      simp only [List.cons_append, runSeq] at h
      cases hr : run G n e' s with
      | none => rw [hr] at h; simp at h
      | some o =>
        rw [hr] at h
        cases o with
        | fail _ => simp at h
        | panic _ => simp at h
        | ok v1 s1 => exact ih h

theorem notAny_end {G n s v s'} (h : run G n (.not .any) s = some (.ok v s')) : s'.pos = [] := by
  cases n with
  | zero => simp [run] at h
  | succ n =>
    rw [run] at h
    cases n with
    | zero => simp [run] at h
    | succ n =>
      rw [run, parseAny] at h
      cases hp : (push s).pos with
      | nil =>
        have hp' : s.pos = [] := hp
        rw [hp] at h; simp [popTo] at h; rw [← h.2]; exact hp'
      | cons x l => rw [hp] at h; simp [popTo] at h

theorem file_end {lib n s v s'} (h : run (ruleGrammar lib) n (.ruleRef .File) s = some (.ok v s')) : s'.pos = [] := by
  cases n with
  | zero => simp [run] at h
  | succ n =>
    rw [run] at h
    obtain ⟨s1, h1, rfl⟩ := popTo_ok h
    have h1 : run (ruleGrammar lib) n gFile (push s) = some (.ok v s1) := h1
    rw [gFile] at h1
    obtain ⟨m, v2, s2, h2, hp, -⟩ := run_action_inv h1
    show s1.pos = []
    rw [hp]
    cases m with
    | zero => simp [run] at h2
    | succ m =>
      rw [run] at h2
      obtain ⟨_, _, _, h3⟩ := runSeq_last (es := [_]) h2
      exact notAny_end h3

theorem run_valid {bs n v s} (hr : run (ruleGrammar lib) n (.ruleRef .File) (initSt (decode bs)) = some (.ok v s)) (he : s.errs = []) :
    ValidUtf8 bs := by
  rw [validUtf8_iff]
  obtain ⟨-, l, hl, hb⟩ := ((step_bad (ruleGrammar lib)).run _).1 _ _ _ hr
  rw [file_end hr, initSt_pos, List.append_nil] at hl
  have hstart : (initSt (decode bs)).pos.head?.any isBad = true → (initSt (decode bs)).errs ≠ [] := by
    rw [initSt_pos]
    intro hh
    unfold initSt noteBad
    cases hd : decode bs with
    | nil => rw [hd] at hh; simp at hh
    | cons x r => rw [hd] at hh; cases x with
      | ok c => simp [isBad] at hh
      | bad b => simp
  intro x hx
  cases x with
  | ok c => exact ⟨c, rfl⟩
  | bad b =>
    exfalso
    refine hb hstart (.inl ?_) he
    rw [List.any_eq_true]
    exact ⟨_, by rw [← hl]; exact hx, rfl⟩

theorem parse_valid {bs f} (h : parseBytes lib bs = .ok f) : ValidUtf8 bs := by
  obtain ⟨s, hr, he⟩ := parse_ok_iff.1 h
  exact run_valid hr he

/-- Accepted inputs are exactly the encodings of texts in the language. -/
theorem parse_bytes_sound {bs f} (h : parseBytes lib bs = .ok f) : ∃ cs, bs = utf8 cs ∧ FileText (goText lib) cs f.rules := by
  obtain ⟨cs, rfl⟩ := parse_valid h
  exact ⟨cs, rfl, parse_sound h⟩

/-! ## No panic -/

theorem parse_ne_panic (lib : GoLib) (bs : List UInt8) : parseBytes lib bs ≠ .panic := by
  intro h
  obtain ⟨o, ho⟩ := file_run lib bs
  have h0 := h
  rw [parseBytes, parseDepth, parseSyms, ho] at h
  cases o with
  | fail s =>
    simp only [Option.map_some, Option.getD_some] at h
    cases hs : s.errs with
    | nil => simp [hs, castFile] at h
    | cons a b => simp [hs, castFile] at h
  | panic s =>
    simp only [Option.map_some, Option.getD_some] at h
    cases hs : s.errs with
    | nil => simp [hs, castFile] at h
    | cons a b => simp [hs, castFile] at h
  | ok v s =>
    simp only [Option.map_some, Option.getD_some] at h
    cases hs : s.errs with
    | cons a b => rw [hs] at h; cases v <;> simp [castFile] at h
    | nil =>
      have hvalid : ValidUtf8 bs := run_valid ho hs
      obtain ⟨cs, rfl⟩ := hvalid
      have ho' := ho
      rw [decode_utf8, initSt_ok] at ho'
      have := (sim (ruleGrammar lib) (depthBound (utf8 cs).length)).1 (.ruleRef .File) cs Frame.empty []
      rw [ho'] at this
      cases hc : runC (ruleGrammar lib) (depthBound (utf8 cs).length) (.ruleRef .File) cs Frame.empty with
      | none => rw [hc] at this; simp [Sim] at this
      | some o =>
        rw [hc] at this
        cases o with
        | fail => obtain ⟨_, _, h⟩ := this; simp at h
        | abort =>
          rcases this with h | ⟨o, ho, hd⟩
          · simp at h
          · simp at ho; subst ho; exact absurd hs hd
        | ok v cs' fr' =>
          obtain ⟨asked, h1⟩ := this
          simp at h1
          obtain ⟨rfl, -⟩ := h1
          obtain ⟨-, rs, rfl, -⟩ := file_sound (lim_eq (runF_mono _ _ _ _) hc)
          rw [hs] at h; simp [castFile] at h

end
end Verif.Proof

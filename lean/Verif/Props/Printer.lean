import Verif.Proof.Printer
import Verif.Props.Expand
/-!
# Properties of the printer (C14–C16)
-/
namespace Verif.Props

open Verif Verif.Spec

/-- C14.  Printing a file succeeds iff printing each rule succeeds, and the text is the rules' texts, each followed by a newline. -/
theorem C14_file_is_lines (f : File) (s : Str) :
    printBytes (.file f) = .ok s ↔
      ∃ texts : List Str, f.rules.map (fun r => printBytes (.rule r)) = texts.map Res.ok ∧ s = texts.flatMap (· ++ ['\n']) := by
  have e1 : printBytes (.file f) = if f.rules.all rulePrintable = true then
      .ok (f.rules.flatMap fun r => showRule r ++ ['\n']) else .err (.unexpectedType (firstBad (.file f))) := printBytes_eq _
  have e2 : ∀ r, printBytes (.rule r) = if rulePrintable r = true then .ok (showRule r) else .err (.unexpectedType (firstBad (.rule r))) :=
    fun r => printBytes_eq _
  simp only [e1, e2]
  generalize f.rules = l
  constructor
  · intro h
    split at h
    · rename_i hp
      rw [List.all_eq_true] at hp
      refine ⟨l.map showRule, ?_, ?_⟩
      · rw [List.map_map]
        apply List.map_congr_left
        intro r hr
        simp [hp r hr]
      · simp only [Res.ok.injEq] at h
        rw [← h, List.flatMap_map]
    · simp at h
  · rintro ⟨texts, h1, rfl⟩
    have hall : ∀ r ∈ l, rulePrintable r = true := by
      intro r hr
      have : (if rulePrintable r = true then Res.ok (showRule r) else Res.err (.unexpectedType (firstBad (.rule r)))) ∈ texts.map Res.ok := by
        rw [← h1]; exact List.mem_map.2 ⟨r, hr, rfl⟩
      cases hp : rulePrintable r with
      | true => rfl
      | false => simp [hp] at this
    rw [if_pos (List.all_eq_true.2 hall)]
    congr 1
    have : texts = l.map showRule := by
      have h2 : l.map (fun r => if rulePrintable r = true then Res.ok (showRule r) else Res.err (.unexpectedType (firstBad (.rule r)))) =
          (l.map showRule).map Res.ok := by
        rw [List.map_map]
        apply List.map_congr_left
        intro r hr
        simp [hall r hr]
      rw [h2] at h1
      exact (List.map_inj_right (fun a b h => by simpa using h)).1 h1.symm
    rw [this, List.flatMap_map]

/-- C14.  … and it fails iff printing some rule fails. -/
theorem C14_file_fails_iff (f : File) :
    (∃ e, printBytes (.file f) = .err e) ↔ ∃ r ∈ f.rules, ∃ e, printBytes (.rule r) = .err e := by
  have e1 : printBytes (.file f) = if f.rules.all rulePrintable = true then
      .ok (f.rules.flatMap fun r => showRule r ++ ['\n']) else .err (.unexpectedType (firstBad (.file f))) := printBytes_eq _
  have e2 : ∀ r, printBytes (.rule r) = if rulePrintable r = true then .ok (showRule r) else .err (.unexpectedType (firstBad (.rule r))) :=
    fun r => printBytes_eq _
  simp only [e1, e2]
  constructor
  · rintro ⟨e, h⟩
    split at h
    · simp at h
    · rename_i hp
      simp only [Bool.not_eq_true, List.all_eq_false] at hp
      obtain ⟨r, hr, hr'⟩ := hp
      exact ⟨r, hr, .unexpectedType (firstBad (.rule r)), by simp [hr']⟩
  · rintro ⟨r, hr, e, h⟩
    refine ⟨.unexpectedType (firstBad (.file f)), ?_⟩
    rw [if_neg]
    intro hall
    rw [List.all_eq_true] at hall
    simp [hall r hr] at h

example : printBytes (.file ⟨[altRule, plainRule]⟩) =
    .ok "(Add(8|16) x (Neg(8|16) y)) => (Sub(8|16) x y)\n(Neg8 (Neg8 x)) => x\n".toList := by decide

/-- C15.  `Bytes` succeeds exactly on printable nodes; it never panics; and on success the text is the documented form. -/
theorem C15_bytes (n : Node) :
    (printable n = true → printBytes n = .ok (showNode n)) ∧ (printable n = false → ∃ e, printBytes n = .err e) := by
  rw [printBytes_eq]
  cases printable n <;> simp

/-- C15.  The error names the Go type of the first node, in the order of the printed text, that has no printed form. -/
theorem C15_error (n : Node) (e : Err) :
    printBytes n = .err e ↔ ∃ ty rest, badNode n = ty :: rest ∧ e = .unexpectedType ty := by
  rw [printBytes_eq]
  cases hb : badNode n with
  | nil => simp [(printable_iff n).2 hb]
  | cons t l =>
    have : printable n = false := by
      cases hp : printable n with
      | false => rfl
      | true => rw [(printable_iff n).1 hp] at hb; cases hb
    simp only [this, Bool.false_eq_true, if_false, Res.err.injEq, firstBad, hb, List.headD_cons, List.cons.injEq]
    constructor
    · rintro rfl; exact ⟨t, l, ⟨rfl, rfl⟩, rfl⟩
    · rintro ⟨_, _, ⟨rfl, rfl⟩, rfl⟩; rfl

/-- two unsupported nodes: a function literal and, later in the text, an index expression -/
example : (match printBytes (.rule { plainRule with condition := some (.binary (.other "FuncLit".toList) 0 .add (.other "IndexExpr".toList)) }) with
    | .err e => e.text | _ => []) = "assertion failure: unexpected type *ast.FuncLit".toList := by decide +kernel

/-- C15.  An operator is printed as Go writes it, and it has blanks around it exactly if it is a comparison, `&&` or `||` (`op` is a binary operator of Go, `w` its text). -/
theorem C15_operators (x y : GoExpr) (pos : Nat) (op : Tok) (w a b : Str) (hw : (op, w) ∈ operatorWords) (hop : 1 ≤ op.level)
    (hx : printBytes (.expr x) = .ok a) (hy : printBytes (.expr y) = .ok b) :
    printBytes (.expr (.binary x pos op y)) =
      .ok (a ++ (if w ∈ [['=', '='], ['!', '='], ['<'], ['<', '='], ['>'], ['>', '='], ['&', '&'], ['|', '|']] then ' ' :: w ++ [' '] else w) ++ b) := by
  have hpx : printable (.expr x) = true ∧ showGo x = a := by
    rw [printBytes_eq] at hx
    split at hx
    · exact ⟨by assumption, by simpa [showNode] using hx⟩
    · cases hx
  have hpy : printable (.expr y) = true ∧ showGo y = b := by
    rw [printBytes_eq] at hy
    split at hy
    · exact ⟨by assumption, by simpa [showNode] using hy⟩
    · cases hy
  have hp : printable (.expr (.binary x pos op y)) = true := by
    simp only [printable, goSupported, Bool.and_eq_true] at hpx hpy ⊢
    exact ⟨hpx.1, hpy.1⟩
  rw [printBytes_eq, if_pos hp]
  simp only [showNode, showGo, hpx.2, hpy.2]
  have hb : showBinOp op = if w ∈ [['=', '='], ['!', '='], ['<'], ['<', '='], ['>'], ['>', '='], ['&', '&'], ['|', '|']] then ' ' :: w ++ [' '] else w := by
    revert hop
    generalize ho : (op, w) = r at hw
    have : op = r.1 ∧ w = r.2 := by rw [← ho]; exact ⟨rfl, rfl⟩
    rw [this.1, this.2]
    clear this ho
    revert r
    decide
  rw [hb]

/-- the levels are those of the table of the Go specification -/
example : ∀ r ∈ operatorWords, ∀ n ∈ [1, 2, 3, 4, 5], r.1.level = n ↔ ∃ row ∈ precedenceTable, row.1 = n ∧ r.2 ∈ row.2 := by decide

example : printBytes (.expr (.binary (.ident 0 ['a']) 0 .lss (.binary (.ident 0 ['b']) 0 .andNot (.ident 0 ['c'])))) = .ok "a < b&^c".toList := by decide

/-- C15.  In particular: what makes a rule unprintable. -/
theorem C15_rule_fails_iff (r : Rule) :
    (∃ e, printBytes (.rule r) = .err e) ↔
      valuePrintable r.match = false ∨ goSupportedOpt r.condition = false ∨ valuePrintable r.result = false := by
  rw [printBytes_eq, printable, rulePrintable]
  cases valuePrintable r.match <;> cases goSupportedOpt r.condition <;> cases valuePrintable r.result <;> simp

example : printable (.rule { plainRule with condition := some (.binary (.ident 0 ['x']) 0 .add (.other "FuncLit".toList)) }) = false ∧
    printable (.rule plainRule) = true := by decide

/-- C16.  `Fprint` to an arbitrary writer (its answer to each write may depend on everything written before).  Let `log` be the texts
given to the writer and `res` the error returned.  The texts concatenated are a prefix of `Bytes(n)`; and either some write failed,
then it was the last write and its error is returned; or no write failed, then on a printable node the writer
has received exactly `Bytes(n)` and nil is returned, and on an unprintable node an error is returned. -/
theorem C16_fprint (ans : List Str → Option Err) (n : Node) (log : List Str) (res : Option Err)
    (h : fprint (recorder ans) n [] = (log, res)) :
    (∀ b, printBytes n = .ok b → log.flatten <+: b) ∧
    ((∃ pre s e, log = pre ++ [s] ∧ ans log = some e ∧ res = some e ∧
        ∀ k t rest, pre = k ++ t :: rest → ans (k ++ [t]) = none) ∨
     ((∀ k t rest, log = k ++ t :: rest → ans (k ++ [t]) = none) ∧
        ((∃ b, printBytes n = .ok b ∧ log.flatten = b ∧ res = none) ∨ (∃ e, printBytes n = .err e ∧ res = some e)))) := by
  simp only [fprint, pnode_items, Prod.mk.injEq] at h
  have hs := nodeItems_spec n
  rcases runItems_recorder ans (nodeItems n) [] with ⟨k, s, rest, e, h1, h2, h3, h4⟩ | ⟨h1, h2⟩
  · rw [h4] at h
    simp only [List.nil_append] at h h2 h3
    obtain ⟨rfl, rfl⟩ := h
    constructor
    · intro b hb
      rw [printBytes_eq] at hb
      split at hb
      · rename_i hp
        simp only [Res.ok.injEq] at hb
        rw [← hb, ← hs.2 hp, ← goodTexts_flatten _ (by rw [hs.1]; exact hp), h1]
        exact ⟨rest.flatten, by simp⟩
      · simp at hb
    · left
      exact ⟨k, s, e, rfl, h3, rfl, h2⟩
  · rw [h2] at h
    simp only [List.nil_append] at h h1
    obtain ⟨rfl, rfl⟩ := h
    rw [printBytes_eq]
    constructor
    · intro b hb
      split at hb
      · rename_i hp
        simp only [Res.ok.injEq] at hb
        rw [← hb, ← hs.2 hp, ← goodTexts_flatten _ (by rw [hs.1]; exact hp)]
        exact List.prefix_refl _
      · simp at hb
    · right
      refine ⟨h1, ?_⟩
      rw [hs.1]
      cases hp : printable n with
      | true =>
        left
        exact ⟨showNode n, by simp, by rw [goodTexts_flatten _ (by rw [hs.1]; exact hp), hs.2 hp], by simp⟩
      | false => right; exact ⟨.unexpectedType (firstBad n), by simp, by simp [firstBad, nodeItems_bad]⟩

/-- a writer that fails on its third write: three writes, then the error -/
example : fprint (recorder fun l => if l.length = 3 then some (.other ['!']) else none) (.rule plainRule) [] =
    ([['('], "Neg8".toList, [' ']], some (.other ['!'])) := by decide

end Verif.Props

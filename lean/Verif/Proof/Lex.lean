import Verif.Proof.PegExec
import Verif.Spec.Syntax
/-!
# The lexical parts of the grammar
-/
namespace Verif.Proof
open Verif Verif.Spec

section
variable {G : Grammar}

/-! ## Character classes -/

theorem chr_beq (a b : Char) : (a == b) = decide (a = b) := by
  by_cases h : a = b <;> simp [h]

theorem exec_word (cs fr) : exec G gWord cs fr = match cs with
    | [] => .fail
    | c :: cs' => if isWordChar c = true then .ok (.bytes [c]) cs' fr else .fail := by
  rw [gWord, exec_cls]
  cases cs with
  | nil => rfl
  | cons c cs =>
    have : inClass ['_'] [('a', 'z'), ('A', 'Z'), ('0', '9')] c = isWordChar c := by
      simp [inClass, isWordChar, isLower, Bool.or_assoc, chr_beq]
    simp only [clsC, this]
    cases isWordChar c <;> simp

theorem exec_lower (cs fr) : exec G gLower cs fr = match cs with
    | [] => .fail
    | c :: cs' => if isLower c = true then .ok (.bytes [c]) cs' fr else .fail := by
  rw [gLower, exec_cls]
  cases cs with
  | nil => rfl
  | cons c cs =>
    have : inClass [] [('a', 'z')] c = isLower c := by
      simp [inClass, isLower]
    simp only [clsC, this]
    cases isLower c <;> simp

theorem exec_inv (x : Char) (cs fr) : exec G (.cls [x] [] true) cs fr = match cs with
    | [] => .fail
    | c :: cs' => if (c != x) = true then .ok (.bytes [c]) cs' fr else .fail := by
  rw [exec_cls]
  cases cs with
  | nil => rfl
  | cons c cs =>
    have : inClass [x] [] c = (c == x) := by
      simp [inClass, chr_beq]
    simp only [clsC, this]
    by_cases h : c = x
    · subst h; simp
    · have : (c == x) = false := by simp [h]
      simp [this, h]

/-- A grammar expression that matches exactly one character with property `p`. -/
def OneChar (G : Grammar) (e : PExpr) (p : Char → Bool) : Prop := ∀ cs, exec G e cs Frame.empty = match cs with
    | [] => .fail
    | c :: cs' => if p c = true then .ok (.bytes [c]) cs' Frame.empty else .fail

theorem oneChar_items {e p} (h : OneChar G e p) (cs : Str) :
    Items G e cs ((cs.takeWhile p).map fun c => .bytes [c]) (cs.dropWhile p) := by
  induction cs with
  | nil => exact .nil (h [])
  | cons c cs ih =>
    have hc := h (c :: cs)
    by_cases hp : p c = true
    · rw [List.takeWhile_cons_of_pos hp, List.dropWhile_cons_of_pos hp, List.map_cons]
      simp only [hp, if_true] at hc
      exact .cons hc ih
    · rw [List.takeWhile_cons_of_neg hp, List.dropWhile_cons_of_neg hp]
      simp only [hp] at hc
      exact .nil hc

theorem oneChar_zero {e p} (h : OneChar G e p) (cs : Str) (fr) :
    exec G (.zeroOrMore e) cs fr = .ok (.list ((cs.takeWhile p).map fun c => .bytes [c])) (cs.dropWhile p) fr := by
  rw [exec_zeroOrMore]
  exact loop_of_items (vs := []) (oneChar_items h cs) (by simp)

theorem oneChar_one {e p} (h : OneChar G e p) (cs : Str) (fr) :
    exec G (.oneOrMore e) cs fr = if cs.takeWhile p = [] then .fail else
      .ok (.list ((cs.takeWhile p).map fun c => .bytes [c])) (cs.dropWhile p) fr := by
  rw [exec_oneOrMore]
  split
  · rename_i hn
    rw [execLoop_eq, h cs]
    cases cs with
    | nil => rfl
    | cons c cs =>
      have : ¬ p c = true := by
        intro hp; rw [List.takeWhile_cons_of_pos hp] at hn; simp at hn
      simp [this]
  · rename_i hn
    exact loop_of_items (vs := []) (oneChar_items h cs) (by simpa using hn)

theorem word_one : OneChar G gWord isWordChar := fun cs => exec_word cs _
theorem lower_one : OneChar G gLower isLower := fun cs => exec_lower cs _
theorem inv_one (x) : OneChar G (.cls [x] [] true) (fun c => c != x) := fun cs => exec_inv x cs _

theorem takeWhile_append_dropWhile' (p : Char → Bool) (cs : Str) : cs = cs.takeWhile p ++ cs.dropWhile p :=
  (List.takeWhile_append_dropWhile).symm

theorem takeWhile_all (p : Char → Bool) (cs : Str) : ∀ c ∈ cs.takeWhile p, p c = true := by
  intro c hc
  induction cs with
  | nil => simp at hc
  | cons d cs ih =>
    by_cases hd : p d = true
    · rw [List.takeWhile_cons_of_pos hd] at hc
      rcases List.mem_cons.1 hc with rfl | h
      · exact hd
      · exact ih h
    · rw [List.takeWhile_cons_of_neg hd] at hc; simp at hc

theorem dropWhile_head (p : Char → Bool) (cs : Str) : ∀ c, (cs.dropWhile p).head? = some c → p c = false := by
  intro c hc
  induction cs with
  | nil => simp at hc
  | cons d cs ih =>
    by_cases hd : p d = true
    · rw [List.dropWhile_cons_of_pos hd] at hc; exact ih hc
    · rw [List.dropWhile_cons_of_neg hd] at hc; simp at hc; subst hc; simpa using hd

/-- `cs` does not go on with a character satisfying `p`. -/
def Stops (p : Char → Bool) (cs : Str) : Prop := ∀ c, cs.head? = some c → p c = false

theorem takeWhile_stop {p : Char → Bool} {t rest : Str} (h : ∀ c ∈ t, p c = true) (hr : Stops p rest) :
    (t ++ rest).takeWhile p = t ∧ (t ++ rest).dropWhile p = rest := by
  induction t with
  | nil =>
    cases rest with
    | nil => simp
    | cons c rest =>
      have hc : ¬ p c = true := by simp [hr c rfl]
      simp [List.takeWhile_cons_of_neg hc, List.dropWhile_cons_of_neg hc]
  | cons c t ih =>
    have hc := h c (by simp)
    have := ih (fun d hd => h d (by simp [hd]))
    simp [List.takeWhile_cons_of_pos hc, List.dropWhile_cons_of_pos hc, this]

/-! ## Sequences and literals -/

theorem exec_lit_ok (w cs fr) : exec G (.lit w) (w ++ cs) fr = .ok (.bytes w) cs fr := by
  rw [exec_lit, litC]
  have := (strip_eq w (w ++ cs) cs).2 rfl
  rw [this]

theorem exec_lit_inv {w cs fr v cs' fr'} (h : exec G (.lit w) cs fr = .ok v cs' fr') :
    cs = w ++ cs' ∧ v = .bytes w ∧ fr' = fr := by
  rw [exec_lit, litC] at h
  split at h
  · rename_i cs'' hs
    simp only [COut.ok.injEq] at h
    obtain ⟨rfl, rfl, rfl⟩ := h
    exact ⟨(strip_eq _ _ _).1 hs, rfl, rfl⟩
  · simp at h

theorem exec_lit_fail {w cs fr} (h : ∀ cs', cs ≠ w ++ cs') : exec G (.lit w) cs fr = .fail := by
  rw [exec_lit, litC]
  split
  · rename_i cs'' hs
    exact absurd ((strip_eq _ _ _).1 hs) (h _)
  · rfl

theorem exec_lit_noabort {w cs fr} : exec G (.lit w) cs fr ≠ .abort := by
  rw [exec_lit, litC]; split <;> simp

/-- A literal that fails because the first character is another one. -/
theorem exec_lit_head {c w cs fr} (h : cs.head? ≠ some c) : exec G (.lit (c :: w)) cs fr = .fail := by
  apply exec_lit_fail
  intro cs' he
  rw [he] at h; simp at h

theorem seq_inv {e es vs cs fr v cs' fr'} (h : execSeq G (e :: es) vs cs fr = .ok v cs' fr') :
    ∃ v1 cs1 fr1, exec G e cs fr = .ok v1 cs1 fr1 ∧ execSeq G es (vs ++ [v1]) cs1 fr1 = .ok v cs' fr' := by
  rw [execSeq_cons] at h
  cases he : exec G e cs fr with
  | ok v1 cs1 fr1 => rw [he] at h; exact ⟨_, _, _, rfl, h⟩
  | fail => rw [he] at h; simp at h
  | abort => rw [he] at h; simp at h

theorem seq_nil_inv {vs cs fr v cs' fr'} (h : execSeq G [] vs cs fr = .ok v cs' fr') : v = .list vs ∧ cs' = cs ∧ fr' = fr := by
  rw [execSeq_nil] at h; simp only [COut.ok.injEq] at h
  obtain ⟨rfl, rfl, rfl⟩ := h
  exact ⟨rfl, rfl, rfl⟩

theorem seq_step {e es vs cs fr v1 cs1 fr1} (h : exec G e cs fr = .ok v1 cs1 fr1) :
    execSeq G (e :: es) vs cs fr = execSeq G es (vs ++ [v1]) cs1 fr1 := by
  rw [execSeq_cons, h]

theorem seq_fail {e es vs cs fr} (h : exec G e cs fr = .fail) : execSeq G (e :: es) vs cs fr = .fail := by
  rw [execSeq_cons, h]

theorem choice_inv {es cs fr v cs' fr'} (h : execChoice G es cs fr = .ok v cs' fr') :
    ∃ pre e post fr1, es = pre ++ e :: post ∧ (∀ e' ∈ pre, exec G e' cs Frame.empty = .fail) ∧
      exec G e cs Frame.empty = .ok v cs' fr1 ∧ fr' = fr := by
  induction es with
  | nil => rw [execChoice_nil] at h; simp at h
  | cons e es ih =>
    rw [execChoice_cons] at h
    cases he : exec G e cs Frame.empty with
    | ok v1 cs1 fr1 =>
      rw [he] at h; simp only [COut.ok.injEq] at h
      obtain ⟨rfl, rfl, rfl⟩ := h
      exact ⟨[], e, es, fr1, rfl, by simp, he, rfl⟩
    | fail =>
      rw [he] at h
      obtain ⟨pre, e', post, fr1, rfl, h2, h3, h4⟩ := ih h
      refine ⟨e :: pre, e', post, fr1, rfl, ?_, h3, h4⟩
      intro x hx
      rcases List.mem_cons.1 hx with rfl | hx
      · exact he
      · exact h2 x hx
    | abort => rw [he] at h; simp at h

/-! ## Skipped text -/

/-- No piece of skipped text starts here. -/
def NoSkip (cs : Str) : Prop := ¬ ∃ u rest, SkipUnit u ∧ cs = u ++ rest

theorem noSkip_nil : NoSkip [] := by
  rintro ⟨u, rest, hu, h⟩
  cases hu <;> simp at h

theorem noSkip_cons {c cs} (h1 : isBlank c = false) (h2 : c ≠ '/') : NoSkip (c :: cs) := by
  rintro ⟨u, rest, hu, h⟩
  cases hu with
  | blank d hd => simp at h; rw [← h.1, h1] at hd; simp at hd
  | comment t ht => simp at h; exact h2 h.1

theorem noSkip_slash {cs} (h : cs.head? ≠ some '/') : NoSkip ('/' :: cs) := by
  rintro ⟨u, rest, hu, he⟩
  cases hu with
  | blank d hd => simp at he; rw [← he.1] at hd; exact absurd hd (by decide)
  | comment t ht => simp at he; rw [he] at h; simp at h

theorem noSkip_comment {cs} (h : '\n' ∉ cs) : NoSkip ('/' :: '/' :: cs) := by
  rintro ⟨u, rest, hu, he⟩
  cases hu with
  | blank d hd => simp at he; rw [← he.1] at hd; exact absurd hd (by decide)
  | comment t ht => simp at he; rw [he] at h; simp at h

theorem exec_blank (cs fr) : exec G (.cls [' ', '\t', '\r', '\n'] [] false) cs fr = match cs with
    | [] => .fail
    | c :: cs' => if isBlank c = true then .ok (.bytes [c]) cs' fr else .fail := by
  rw [exec_cls]
  cases cs with
  | nil => rfl
  | cons c cs =>
    have : inClass [' ', '\t', '\r', '\n'] [] c = isBlank c := by
      simp [inClass, isBlank, Bool.or_assoc, chr_beq]
    simp only [clsC, this]
    cases isBlank c <;> simp

theorem exec_comment (t rest fr) (ht : '\n' ∉ t) :
    ∃ v, exec G (.seq [.lit ['/', '/'], .zeroOrMore (.cls ['\n'] [] true), .lit ['\n']]) ('/' :: '/' :: t ++ '\n' :: rest) fr =
      .ok v rest fr := by
  rw [exec_seq]
  have e0 : exec G (.lit ['/', '/']) ('/' :: '/' :: t ++ '\n' :: rest) fr = .ok (.bytes ['/', '/']) (t ++ '\n' :: rest) fr :=
    exec_lit_ok ['/', '/'] (t ++ '\n' :: rest) fr
  rw [seq_step e0]
  have h := takeWhile_stop (p := fun c => c != '\n') (t := t) (rest := '\n' :: rest)
    (by intro c hc; simp; rintro rfl; exact ht hc) (by intro c hc; simp at hc; simp [← hc])
  rw [seq_step (oneChar_zero (inv_one '\n') _ _), h.1, h.2]
  have e1 : exec G (.lit ['\n']) ('\n' :: rest) fr = .ok (.bytes ['\n']) rest fr := exec_lit_ok ['\n'] rest fr
  rw [seq_step e1, execSeq_nil]
  exact ⟨_, rfl⟩

theorem skip_fwd {u rest} (h : SkipUnit u) : ∃ v, ∀ fr, exec G gSkip (u ++ rest) fr = .ok v rest fr := by
  rw [gSkip]
  cases h with
  | blank c hc =>
    refine ⟨.bytes [c], fun fr => ?_⟩
    rw [exec_choice, execChoice_cons, exec_seq]
    have hs : c ≠ '/' := by rintro rfl; exact absurd hc (by decide)
    rw [seq_fail (exec_lit_head (by simp [hs]))]
    simp only [execChoice_cons, exec_blank]
    simp [hc]
  | comment t ht =>
    obtain ⟨v, hv⟩ := exec_comment (G := G) t rest Frame.empty ht
    refine ⟨v, fun fr => ?_⟩
    have e : ('/' :: '/' :: t ++ ['\n']) ++ rest = '/' :: '/' :: t ++ '\n' :: rest := by simp
    rw [e, exec_choice, execChoice_cons, hv]

theorem skip_none {cs} (h : NoSkip cs) (fr) : exec G gSkip cs fr = .fail := by
  rw [gSkip, exec_choice, execChoice_cons, exec_seq]
  have hb : execChoice G [.cls [' ', '\t', '\r', '\n'] [] false] cs fr = .fail := by
    rw [execChoice_cons, exec_blank]
    cases cs with
    | nil => exact execChoice_nil _ _
    | cons c cs =>
      have : ¬ isBlank c = true := fun hc => h ⟨[c], cs, .blank c hc, rfl⟩
      simp only [this, if_false]; exact execChoice_nil _ _
  have hc : execSeq G [.lit ['/', '/'], .zeroOrMore (.cls ['\n'] [] true), .lit ['\n']] [] cs Frame.empty = .fail := by
    rw [execSeq_cons]
    cases hl : exec G (.lit ['/', '/']) cs Frame.empty with
    | fail => rfl
    | abort => exact absurd hl exec_lit_noabort
    | ok v cs1 fr1 =>
      obtain ⟨h1, -, -⟩ := exec_lit_inv hl
      simp only []
      rw [seq_step (oneChar_zero (inv_one '\n') _ _)]
      cases hd : cs1.dropWhile (fun c => c != '\n') with
      | nil => exact seq_fail (exec_lit_head (by simp))
      | cons d rest =>
        exfalso
        have hh := dropWhile_head (fun c => c != '\n') cs1 d (by rw [hd]; rfl)
        have hh : d = '\n' := by simpa using hh
        subst hh
        apply h
        refine ⟨'/' :: '/' :: cs1.takeWhile (fun c => c != '\n') ++ ['\n'], rest, .comment _ ?_, ?_⟩
        · intro hm; have := takeWhile_all _ _ _ hm; simp at this
        · rw [h1]
          conv => lhs; rw [takeWhile_append_dropWhile' (fun c => c != '\n') cs1, hd]
          simp
  rw [hc]; exact hb

theorem skip_items {s rest} (hs : Skip s) (hr : NoSkip rest) :
    ∃ vs, Items G gSkip (s ++ rest) vs rest ∧ (s = [] ↔ vs = []) := by
  induction hs with
  | nil => exact ⟨[], .nil (skip_none hr _), by simp⟩
  | @cons u s hu _ ih =>
    obtain ⟨vs, h, _⟩ := ih
    obtain ⟨v, hv⟩ := skip_fwd (G := G) (rest := s ++ rest) hu
    refine ⟨v :: vs, ?_, ?_⟩
    · rw [List.append_assoc]; exact .cons (hv _) h
    · cases hu <;> simp

theorem skip_split (cs : Str) : ∃ s rest, cs = s ++ rest ∧ Skip s ∧ NoSkip rest := by
  suffices ∀ n (cs : Str), cs.length ≤ n → ∃ s rest, cs = s ++ rest ∧ Skip s ∧ NoSkip rest from this _ cs (Nat.le_refl _)
  intro n
  induction n with
  | zero =>
    intro cs h
    have : cs = [] := List.length_eq_zero_iff.1 (by omega)
    subst this
    exact ⟨[], [], rfl, .nil, noSkip_nil⟩
  | succ n ih =>
    intro cs h
    by_cases hc : NoSkip cs
    · exact ⟨[], cs, rfl, .nil, hc⟩
    · simp only [NoSkip, Classical.not_not] at hc
      obtain ⟨u, rest, hu, rfl⟩ := hc
      have : rest.length ≤ n := by
        cases hu <;> simp at h <;> omega
      obtain ⟨s, rest', rfl, h2, h3⟩ := ih rest this
      exact ⟨u ++ s, rest', by simp, .cons hu h2, h3⟩

/-- `_` in front of something that is not skipped. -/
theorem exec_skip {s rest} (hs : Skip s) (hr : NoSkip rest) : ∃ vs, ∀ fr, exec G g_ (s ++ rest) fr = .ok (.list vs) rest fr := by
  obtain ⟨vs, h, _⟩ := skip_items (G := G) hs hr
  refine ⟨vs, fun fr => ?_⟩
  rw [g_, exec_zeroOrMore]
  exact loop_of_items (vs := []) h (by simp)

theorem exec_skip1 {s rest} (hs : Skip1 s) (hr : NoSkip rest) : ∃ vs, ∀ fr, exec G g__ (s ++ rest) fr = .ok (.list vs) rest fr := by
  obtain ⟨vs, h, h'⟩ := skip_items (G := G) hs.1 hr
  refine ⟨vs, fun fr => ?_⟩
  rw [g__, exec_oneOrMore]
  exact loop_of_items (vs := []) h (by simpa using fun h => hs.2 (h'.2 h))

theorem exec_skip1_none {cs} (h : NoSkip cs) (fr) : exec G g__ cs fr = .fail := by
  rw [g__, exec_oneOrMore, execLoop_eq, skip_none h]
  rfl

/-- Any use of `_`. -/
theorem skip_inv {cs fr v cs' fr'} (h : exec G g_ cs fr = .ok v cs' fr') :
    ∃ s, cs = s ++ cs' ∧ Skip s ∧ NoSkip cs' ∧ fr' = fr := by
  obtain ⟨s, rest, rfl, h1, h2⟩ := skip_split cs
  obtain ⟨vs, hv⟩ := exec_skip (G := G) h1 h2
  rw [hv] at h; simp only [COut.ok.injEq] at h
  obtain ⟨rfl, rfl, rfl⟩ := h
  exact ⟨s, rfl, h1, h2, rfl⟩

theorem skip1_inv {cs fr v cs' fr'} (h : exec G g__ cs fr = .ok v cs' fr') :
    ∃ s, cs = s ++ cs' ∧ Skip1 s ∧ NoSkip cs' ∧ fr' = fr := by
  obtain ⟨s, rest, rfl, h1, h2⟩ := skip_split cs
  by_cases hs : s = []
  · subst hs
    rw [List.nil_append, exec_skip1_none h2] at h; simp at h
  · obtain ⟨vs, hv⟩ := exec_skip1 (G := G) ⟨h1, hs⟩ h2
    rw [hv] at h; simp only [COut.ok.injEq] at h
    obtain ⟨rfl, rfl, rfl⟩ := h
    exact ⟨s, rfl, ⟨h1, hs⟩, h2, rfl⟩

theorem skip_total (cs fr) : ∃ v cs', exec G g_ cs fr = .ok v cs' fr := by
  obtain ⟨s, rest, rfl, h1, h2⟩ := skip_split cs
  obtain ⟨vs, hv⟩ := exec_skip (G := G) h1 h2
  exact ⟨_, _, hv fr⟩

theorem skip1_noabort (cs fr) : exec G g__ cs fr ≠ .abort := by
  obtain ⟨s, rest, rfl, h1, h2⟩ := skip_split cs
  by_cases hs : s = []
  · subst hs; rw [List.nil_append, exec_skip1_none h2]; simp
  · obtain ⟨vs, hv⟩ := exec_skip1 (G := G) ⟨h1, hs⟩ h2
    rw [hv]; simp

theorem skip_append {a b : Str} (ha : Skip a) (hb : Skip b) : Skip (a ++ b) := by
  induction ha with
  | nil => exact hb
  | cons hu _ ih => rw [List.append_assoc]; exact .cons hu ih

/-- The first character of non-empty skipped text. -/
theorem skip_head {s : Str} (h : Skip s) : ∀ c, s.head? = some c → isBlank c = true ∨ c = '/' := by
  intro c hc
  cases h with
  | nil => simp at hc
  | cons hu _ =>
    cases hu with
    | blank d hd => simp at hc; subst hc; exact Or.inl hd
    | comment t ht => simp at hc; exact Or.inr hc.symm

theorem skip_cases {s : Str} (h : Skip s) : s = [] ∨ ∃ c t, s = c :: t ∧ (isBlank c = true ∨ c = '/') := by
  cases s with
  | nil => exact Or.inl rfl
  | cons c t => exact Or.inr ⟨c, t, rfl, skip_head h c rfl⟩

/-! ## Identifiers -/

theorem exec_ident (cs fr) : exec G gIdent cs fr = match cs with
    | [] => .fail
    | c :: cs' => if isLower c = true then
        .ok (.list [.bytes [c], .list ((cs'.takeWhile isWordChar).map fun c => .bytes [c])]) (cs'.dropWhile isWordChar) fr
      else .fail := by
  rw [gIdent, exec_seq, execSeq_cons, exec_lower]
  cases cs with
  | nil => rfl
  | cons c cs =>
    by_cases h : isLower c = true
    · simp only [h, if_true]
      rw [seq_step (oneChar_zero word_one _ _), execSeq_nil]
      rfl
    · simp only [h, if_false]; rfl

theorem ident_fwd {x rest fr} (hx : Ident x) (hr : Stops isWordChar rest) : ∃ v, exec G gIdent (x ++ rest) fr = .ok v rest fr := by
  obtain ⟨c, t, rfl, hc, ht⟩ := hx
  have := takeWhile_stop ht hr
  rw [exec_ident]
  simp only [List.cons_append, hc, if_true, this.2]
  exact ⟨_, rfl⟩

theorem ident_inv {cs fr v cs' fr'} (h : exec G gIdent cs fr = .ok v cs' fr') :
    ∃ x, cs = x ++ cs' ∧ Ident x ∧ Stops isWordChar cs' ∧ fr' = fr := by
  rw [exec_ident] at h
  cases cs with
  | nil => simp at h
  | cons c cs =>
    by_cases hc : isLower c = true
    · simp only [hc, if_true, COut.ok.injEq] at h
      obtain ⟨-, rfl, rfl⟩ := h
      refine ⟨c :: cs.takeWhile isWordChar, by simp, ⟨c, _, rfl, hc, takeWhile_all _ _⟩, dropWhile_head _ _, rfl⟩
    · simp [hc] at h

theorem ident_none {cs fr} (h : Stops isLower cs) : exec G gIdent cs fr = .fail := by
  rw [exec_ident]
  cases cs with
  | nil => rfl
  | cons c cs => simp [h c rfl]

theorem ident_noabort {cs fr} : exec G gIdent cs fr ≠ .abort := by
  rw [exec_ident]
  cases cs with
  | nil => simp
  | cons c cs => simp only []; split <;> simp

theorem word_fwd {x rest fr} (hx : Word x) (hr : Stops isWordChar rest) : ∃ v, exec G gOpPart (x ++ rest) fr = .ok v rest fr := by
  have := takeWhile_stop hx.2 hr
  rw [gOpPart, oneChar_one word_one, this.1, this.2, if_neg hx.1]
  exact ⟨_, rfl⟩

theorem word_inv {cs fr v cs' fr'} (h : exec G gOpPart cs fr = .ok v cs' fr') :
    ∃ x, cs = x ++ cs' ∧ Word x ∧ Stops isWordChar cs' ∧ fr' = fr := by
  rw [gOpPart, oneChar_one word_one] at h
  split at h
  · simp at h
  · rename_i hn
    simp only [COut.ok.injEq] at h
    obtain ⟨-, rfl, rfl⟩ := h
    exact ⟨cs.takeWhile isWordChar, by simp, ⟨hn, takeWhile_all _ _⟩, dropWhile_head _ _, rfl⟩

theorem word_none {cs fr} (h : Stops isWordChar cs) : exec G gOpPart cs fr = .fail := by
  rw [gOpPart, oneChar_one word_one, if_pos]
  exact (takeWhile_stop (t := []) (by simp) h).1

end
end Verif.Proof

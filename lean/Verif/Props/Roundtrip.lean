import Verif.Proof.FuseRules
import Verif.Props.Parse
/-!
# Printing and parsing again (C18–C20)

`FollowsGo u lib` says that the Go parser in use reads exactly the texts the reference `goSyntax` (Spec/GoSyntax.lean) reads, as the same trees
(positions aside).  `u` stands for the Go version: which non-ASCII characters are letters and digits, and whether `~` is an operator.
-/
namespace Verif.Props
open Verif Verif.Spec Verif.Proof

/-! ## Examples: a Go version with ASCII identifiers only, and the Go parser that is the reference itself -/

def asciiGo : GoVersion where
  letter := fun _ => false
  digit := fun _ => false
  tilde := false
  letter_not_space := by simp
  digit_not_space := by simp

def refLib (u : GoVersion) : GoLib where
  parseExpr := goSyntax u

/-- The hypothesis about the library can be met. -/
theorem refLib_follows (u : GoVersion) : FollowsGo u (refLib u) := by
  intro t e
  constructor
  · rintro ⟨tree, h, hs, rfl⟩
    have hc := goWF_clean (goSyntax_sound h).1
    rw [hc.2]; exact h
  · intro h
    have hc := goWF_clean (goSyntax_sound h).1
    exact ⟨e, h, hc.1, hc.2.symm⟩

/-! ## C18: what is printed is read back -/

/-- C18.  A file of stable rules (well-formed, no two tokens of a Go expression fuse, no bracket inside the brackets) can be printed, and the
printed text is parsed as exactly that file. -/
theorem C18_print_parse (u : GoVersion) (lib : GoLib) (hl : FollowsGo u lib) (f : File) (h : ∀ r ∈ f.rules, RuleStable u r) :
    ∃ s, printBytes (.file f) = .ok s ∧ parseBytes lib (utf8 s) = .ok f := by
  have hp := parse_show hl h
  have := C17_print_parsed lib _ f hp
  exact ⟨_, this, hp⟩

/-- C18, exactly.  Stable rules are all that is read back: any file whatsoever, parsed or put together by hand, can be printed and is parsed from
its printed text as itself if and only if all its rules are stable. -/
theorem C18_exact (u : GoVersion) (lib : GoLib) (hl : FollowsGo u lib) (f : File) :
    (∃ s, printBytes (.file f) = .ok s ∧ parseBytes lib (utf8 s) = .ok f) ↔ ∀ r ∈ f.rules, RuleStable u r := by
  refine ⟨?_, C18_print_parse u lib hl f⟩
  rintro ⟨s, hs, hp⟩
  rw [C17_print_parsed lib _ f hp] at hs
  cases hs
  obtain ⟨h1, h2⟩ := reparse_only hl hp
  obtain ⟨cs, -, ht⟩ := C24_accepted_is_rules lib _ f hp
  intro r hr
  obtain ⟨a, b, c, -, hb⟩ := fileText_mem ht r hr
  exact ruleText_stable (fun t e => (hl t e).1) hb (h1 r hr) (h2 r hr)

/-- C18, exactly, for a Go expression by itself. -/
theorem C18_goexpr_exact (u : GoVersion) (lib : GoLib) (hl : FollowsGo u lib) (e : GoExpr) : GoText lib (showGo e) e ↔ GoStable u e := by
  rw [hl]
  exact ⟨fun h => ⟨(goSyntax_sound h).1, noFuse_of_show h⟩, goSyntax_show⟩

/-- C18, for a Go expression by itself: the printed form of a stable expression is read as that expression. -/
theorem C18_goexpr (u : GoVersion) (lib : GoLib) (hl : FollowsGo u lib) (e : GoExpr) (h : GoStable u e) : GoText lib (showGo e) e :=
  (hl _ _).2 (goSyntax_show h)

/-! ## C20: the printed form determines the tree -/

/-- C20.  Two files of stable rules that are printed the same are the same. -/
theorem C20_injective (u : GoVersion) (f g : File) (hf : ∀ r ∈ f.rules, RuleStable u r) (hg : ∀ r ∈ g.rules, RuleStable u r)
    (h : printBytes (.file f) = printBytes (.file g)) : f = g := by
  obtain ⟨s, h1, h2⟩ := C18_print_parse u _ (refLib_follows u) f hf
  obtain ⟨s', h3, h4⟩ := C18_print_parse u _ (refLib_follows u) g hg
  rw [h1, h3] at h
  cases h
  rw [h2] at h4
  simpa using h4

/-- C20, for single rules. -/
theorem C20_rule_injective (u : GoVersion) (r s : Rule) (hr : RuleStable u r) (hs : RuleStable u s) (h : showRule r = showRule s) : r = s := by
  have hr' : ∀ x ∈ (⟨[r]⟩ : File).rules, RuleStable u x := by simpa using hr
  have hs' : ∀ x ∈ (⟨[s]⟩ : File).rules, RuleStable u x := by simpa using hs
  have e1 := C17_print_parsed _ _ _ (parse_show (refLib_follows u) hr')
  have e2 := C17_print_parsed _ _ _ (parse_show (refLib_follows u) hs')
  have := C20_injective u ⟨[r]⟩ ⟨[s]⟩ hr' hs' (by rw [e1, e2]; simp [h])
  simpa using this

/-! ## C19: parse, print, parse again -/

/-- C19.  If printing a parsed file puts no two tokens next to each other that fuse, and no literal of a condition contains `=>`, then the
printed text is parsed as the same file again. -/
theorem C19_reparse (u : GoVersion) (lib : GoLib) (hl : FollowsGo u lib) (bs : List UInt8) (f : File) (h : parseBytes lib bs = .ok f)
    (hf : ∀ r ∈ f.rules, ∀ e ∈ ruleExprs r, NoFuse (pieces e)) (hc : ∀ r ∈ f.rules, Opt LitsNoArrow r.condition) :
    ∃ s, printBytes (.file f) = .ok s ∧ parseBytes lib (utf8 s) = .ok f := by
  obtain ⟨cs, -, ht⟩ := C24_accepted_is_rules lib bs f h
  refine C18_print_parse u lib hl f fun r hr => ?_
  obtain ⟨a, b, c, -, hb⟩ := fileText_mem ht r hr
  exact ruleText_stable (fun t e => (hl t e).1) hb (hf r hr) (hc r hr)

/-- C19, exactly.  A parsed file is parsed again from its printed text as the same file if and only if printing puts no two tokens next to each
other that fuse, and no literal of a condition contains `=>`. -/
theorem C19_exact (u : GoVersion) (lib : GoLib) (hl : FollowsGo u lib) (bs : List UInt8) (f : File) (h : parseBytes lib bs = .ok f) :
    (∃ s, printBytes (.file f) = .ok s ∧ parseBytes lib (utf8 s) = .ok f) ↔
      (∀ r ∈ f.rules, ∀ e ∈ ruleExprs r, NoFuse (pieces e)) ∧ ∀ r ∈ f.rules, Opt LitsNoArrow r.condition := by
  constructor
  · rintro ⟨s, hs, hp⟩
    rw [C17_print_parsed lib _ f hp] at hs
    cases hs
    exact reparse_only hl hp
  · rintro ⟨hf, hc⟩
    exact C19_reparse u lib hl bs f h hf hc

theorem mem_utf8_of_ascii {cs : Str} (h : '\r' ∈ cs) : (13 : UInt8) ∈ utf8 cs :=
  List.mem_flatMap.2 ⟨'\r', h, by decide⟩

/-- C19.  The second condition holds by itself if the input contains no carriage return. -/
theorem C19_reparse_no_cr (u : GoVersion) (lib : GoLib) (hl : FollowsGo u lib) (bs : List UInt8) (f : File) (h : parseBytes lib bs = .ok f)
    (hf : ∀ r ∈ f.rules, ∀ e ∈ ruleExprs r, NoFuse (pieces e)) (hcr : (13 : UInt8) ∉ bs) :
    ∃ s, printBytes (.file f) = .ok s ∧ parseBytes lib (utf8 s) = .ok f := by
  obtain ⟨cs, rfl, ht⟩ := C24_accepted_is_rules lib bs f h
  refine C19_reparse u lib hl _ f h hf fun r hr => ?_
  obtain ⟨a, b, c, e, hb⟩ := fileText_mem ht r hr
  refine ruleText_lits (fun t e => (hl t e).1) hb fun hm => hcr (mem_utf8_of_ascii ?_)
  rw [e]; simp [hm]

/-- C19.  In particular printing is then a normal form: print, parse, print gives the same text. -/
theorem C19_normal_form (u : GoVersion) (lib : GoLib) (hl : FollowsGo u lib) (bs : List UInt8) (f : File) (h : parseBytes lib bs = .ok f)
    (hf : ∀ r ∈ f.rules, ∀ e ∈ ruleExprs r, NoFuse (pieces e)) (hc : ∀ r ∈ f.rules, Opt LitsNoArrow r.condition) (s : Str)
    (hs : printBytes (.file f) = .ok s) (g : File) (hg : parseBytes lib (utf8 s) = .ok g) : printBytes (.file g) = .ok s := by
  obtain ⟨t, h1, h2⟩ := C19_reparse u lib hl bs f h hf hc
  rw [h1] at hs
  cases hs
  rw [h2] at hg
  cases hg
  exact h1

/-! Concrete cases. -/

def tripText : Str := "(Sub64 x [c - 1] (Const64 {f(a,b)})) && !a.b && p < -q => (Neg64 x) // c\n".toList

def tripRule : Rule where
  «match» := .sexpr { op := .opcode "Sub64".toList, auxInt := some (.binary (.ident 0 ['c']) 0 .sub (.basicLit 0 .int ['1'])) }
    [.var ['x'], .sexpr { op := .opcode "Const64".toList, aux := some (.call (.ident 0 ['f']) 0 [.ident 0 ['a'], .ident 0 ['b']] 0 0) } []]
  condition := some (.binary (.unary 0 .not (.selector (.ident 0 ['a']) 0 ['b'])) 0 .land
    (.binary (.ident 0 ['p']) 0 .lss (.unary 0 .sub (.ident 0 ['q']))))
  result := .sexpr { op := .opcode "Neg64".toList } [.var ['x']]

theorem trip_parse : parseBytes (refLib asciiGo) (utf8 tripText) = .ok ⟨[tripRule]⟩ := isOk_eq (by decide +kernel)

/-- Decides `NoFuse`. -/
def fusesB : GTok → GTok → Bool
  | .op .add, .op .add => true
  | .op .sub, .op .sub => true
  | .op .and, .op .and => true
  | .op .and, .op .xor => true
  | .op .quo, .op .mul => true
  | .lit .int _, .period => true
  | _, _ => false

def noFuseB : List Piece → Bool
  | .tok a :: .tok b :: ps => !fusesB a b && noFuseB (.tok b :: ps)
  | _ :: ps => noFuseB ps
  | [] => true

theorem fusesB_iff (a b : GTok) : fusesB a b = true ↔ Fuses a b := by
  unfold fusesB Fuses
  split <;> simp_all

theorem noFuse_of {ps : List Piece} (h : noFuseB ps = true) : NoFuse ps := by
  intro pre a b post e
  induction pre generalizing ps with
  | nil =>
    subst e
    simp only [List.nil_append, noFuseB, Bool.and_eq_true, Bool.not_eq_true'] at h
    rw [← fusesB_iff, h.1]; simp
  | cons x pre ih =>
    subst e
    refine ih ?_ rfl
    cases x with
    | blank => simpa [noFuseB] using h
    | tok k =>
      generalize hq : pre ++ Piece.tok a :: Piece.tok b :: post = q at h ⊢
      cases q with
      | nil => cases pre <;> simp at hq
      | cons y q =>
        simp only [List.cons_append, hq] at h
        cases y with
        | blank => simpa [noFuseB] using h
        | tok k' => simp only [noFuseB, Bool.and_eq_true] at h; exact h.2

example : ∃ s, printBytes (.file ⟨[tripRule]⟩) = .ok s ∧ parseBytes (refLib asciiGo) (utf8 s) = .ok ⟨[tripRule]⟩ :=
  C19_reparse_no_cr asciiGo _ (refLib_follows _) (utf8 tripText) _ trip_parse
    (fun r hr e he => noFuse_of (by
      simp only [List.mem_singleton] at hr; subst hr
      revert e; decide +kernel))
    (by decide +kernel)

example : printBytes (.file ⟨[tripRule]⟩) = .ok "(Sub64 [c-1] x (Const64 {f(a, b)})) && !a.b && p < -q => (Neg64 x)\n".toList := by
  decide +kernel

/-- The rule of the example is stable: C18 and C20 apply to it. -/
theorem trip_stable : RuleStable asciiGo tripRule := by
  obtain ⟨cs, hcs, ht⟩ := C24_accepted_is_rules _ _ _ trip_parse
  have hcs := utf8_inj hcs; subst hcs
  obtain ⟨a, b, c, e, hb⟩ := fileText_mem ht tripRule (by simp)
  refine ruleText_stable (fun t e => (refLib_follows asciiGo t e).1) hb (fun e he => noFuse_of (by revert e; decide +kernel)) ?_
  refine ruleText_lits (fun t e => (refLib_follows asciiGo t e).1) hb fun hm => ?_
  have : '\r' ∈ tripText := by rw [e]; simp [hm]
  exact absurd this (by decide +kernel)

/-! The conditions of C19 are needed. -/

/-- `[a & ^b]` is printed as `[a&^b]`, which is another expression. -/
theorem C19_fusion_changes_meaning : ∃ bs f s g, parseBytes (refLib asciiGo) bs = .ok f ∧ printBytes (.file f) = .ok s ∧
    parseBytes (refLib asciiGo) (utf8 s) = .ok g ∧ f ≠ g := by
  refine ⟨utf8 "(A [a & ^b]) => x\n".toList,
    ⟨[{ «match» := .sexpr { op := .opcode ['A'], auxInt := some (.binary (.ident 0 ['a']) 0 .and (.unary 0 .xor (.ident 0 ['b']))) } [],
        result := .var ['x'] }]⟩, "(A [a&^b]) => x\n".toList,
    ⟨[{ «match» := .sexpr { op := .opcode ['A'], auxInt := some (.binary (.ident 0 ['a']) 0 .andNot (.ident 0 ['b'])) } [],
        result := .var ['x'] }]⟩, isOk_eq (by decide +kernel), by decide +kernel, isOk_eq (by decide +kernel), ?_⟩
  intro h; injection h with h; simp at h

def isErr : Res File → Bool
  | .err _ => true
  | _ => false

/-- `[a - -b]` is printed as `[a--b]`, which is rejected. -/
theorem C19_fusion_rejected : ∃ bs f s, parseBytes (refLib asciiGo) bs = .ok f ∧ printBytes (.file f) = .ok s ∧
    isErr (parseBytes (refLib asciiGo) (utf8 s)) = true := by
  refine ⟨utf8 "(A [a - -b]) => x\n".toList,
    ⟨[{ «match» := .sexpr { op := .opcode ['A'], auxInt := some (.binary (.ident 0 ['a']) 0 .sub (.unary 0 .sub (.ident 0 ['b']))) } [],
        result := .var ['x'] }]⟩, "(A [a--b]) => x\n".toList, isOk_eq (by decide +kernel), by decide +kernel, by decide +kernel⟩

/-- A carriage return in a raw string is dropped, and what is left may be an arrow: the printed rule is rejected. -/
theorem C19_cr_rejected : ∃ bs f s, parseBytes (refLib asciiGo) bs = .ok f ∧ (∀ r ∈ f.rules, ∀ e ∈ ruleExprs r, NoFuse (pieces e)) ∧
    printBytes (.file f) = .ok s ∧ isErr (parseBytes (refLib asciiGo) (utf8 s)) = true := by
  refine ⟨utf8 "(A) && `=\r>` => x\n".toList,
    ⟨[{ «match» := .sexpr { op := .opcode ['A'] } [], condition := some (.basicLit 0 .string ['`', '=', '>', '`']),
        result := .var ['x'] }]⟩, "(A) && `=>` => x\n".toList, isOk_eq (by decide +kernel), ?_, by decide +kernel, by decide +kernel⟩
  intro r hr e he
  refine noFuse_of ?_
  simp only [List.mem_singleton] at hr; subst hr
  revert e; decide +kernel

def fuseRule : Rule where
  «match» := .sexpr { op := .opcode ['A'], auxInt := some (.binary (.ident 0 ['a']) 0 .and (.unary 0 .xor (.ident 0 ['b']))) } []
  result := .var ['x']

/-- By `C18_exact` the file with `[a & ^b]` is not read back, by no Go parser that follows the language; the file of the example above is. -/
example (u : GoVersion) (lib : GoLib) (hl : FollowsGo u lib) :
    ¬ ∃ s, printBytes (.file ⟨[fuseRule]⟩) = .ok s ∧ parseBytes lib (utf8 s) = .ok ⟨[fuseRule]⟩ := by
  rw [C18_exact u lib hl]
  intro h
  have h1 := (h fuseRule (by simp)).1.2.2.2.1.1.2
  exact h1 [.tok (.ident ['a'])] (.op .and) (.op .xor) [.tok (.ident ['b'])] rfl trivial
example : ∃ s, printBytes (.file ⟨[tripRule]⟩) = .ok s ∧ parseBytes (refLib asciiGo) (utf8 s) = .ok ⟨[tripRule]⟩ :=
  (C18_exact asciiGo _ (refLib_follows _) _).2 (by simpa using trip_stable)

end Verif.Props

import Verif.Proof.ParseSound
import Verif.Proof.GoTree
/-!
# Rules: condition, block, and the whole rule
-/
namespace Verif.Proof
open Verif Verif.Spec

section
variable {lib : GoLib}

/-! ## Trimming -/

theorem isSpace_iff (c : Char) : isSpace c = true ↔ c.toNat ∈ whiteSpace := by
  simp only [isSpace, whiteSpace, List.mem_cons, List.not_mem_nil, or_false, Bool.or_eq_true, Bool.and_eq_true, decide_eq_true_eq,
    beq_iff_eq]
  omega

theorem isSpace_false (c : Char) : isSpace c = false ↔ c.toNat ∉ whiteSpace := by
  rw [← isSpace_iff]; simp

theorem dropWhile_all {p : Char → Bool} {pre t : Str} (h : ∀ c ∈ pre, p c = true) : (pre ++ t).dropWhile p = t.dropWhile p := by
  induction pre with
  | nil => rfl
  | cons c pre ih => simp [h c (by simp), ih (fun d hd => h d (by simp [hd]))]

theorem dropWhile_id {p : Char → Bool} {t : Str} (h : ∀ c, t.head? = some c → p c = false) : t.dropWhile p = t := by
  cases t with
  | nil => rfl
  | cons c t => simp [h c rfl]

theorem trimmed_unique {s t} (h : Trimmed s t) : t = trimSpace s := by
  obtain ⟨pre, post, rfl, hsp, hh, hl⟩ := h
  have hpre : ∀ c ∈ pre, isSpace c = true := fun c hc => (isSpace_iff c).2 (hsp c (by simp [hc]))
  have hpost : ∀ c ∈ post.reverse, isSpace c = true := fun c hc => (isSpace_iff c).2 (hsp c (by simp at hc; simp [hc]))
  rw [trimSpace, List.append_assoc, dropWhile_all hpre]
  by_cases ht : t = []
  · subst ht
    have : ([] ++ post).dropWhile isSpace = [] := by
      have := dropWhile_all (t := []) (fun c hc => hpost c (by simpa using hc)) (pre := post)
      simpa using this
    rw [this]; rfl
  · have h1 : (t ++ post).dropWhile isSpace = t ++ post := by
      apply dropWhile_id
      intro c hc
      cases t with
      | nil => exact absurd rfl ht
      | cons d t => exact (isSpace_false c).2 (hh c hc)
    rw [h1, List.reverse_append, dropWhile_all hpost]
    have h2 : t.reverse.dropWhile isSpace = t.reverse := by
      apply dropWhile_id
      intro c hc
      rw [List.head?_reverse] at hc
      exact (isSpace_false c).2 (hl c hc)
    rw [h2, List.reverse_reverse]

theorem trimmed_trim (s : Str) : Trimmed s (trimSpace s) := by
  have a1 := takeWhile_append_dropWhile' isSpace s
  have a2 := takeWhile_append_dropWhile' isSpace (s.dropWhile isSpace).reverse
  refine ⟨s.takeWhile isSpace, ((s.dropWhile isSpace).reverse.takeWhile isSpace).reverse, ?_, ?_, ?_, ?_⟩
  · have : s.dropWhile isSpace = trimSpace s ++ ((s.dropWhile isSpace).reverse.takeWhile isSpace).reverse := by
      rw [trimSpace, ← List.reverse_append, ← a2, List.reverse_reverse]
    rw [List.append_assoc, ← this]; exact a1
  · intro c hc
    rw [← isSpace_iff]
    simp only [List.mem_append, List.mem_reverse] at hc
    rcases hc with hc | hc
    · exact takeWhile_all _ _ _ hc
    · exact takeWhile_all _ _ _ hc
  · intro c hc
    rw [← isSpace_false]
    have : s.dropWhile isSpace = trimSpace s ++ ((s.dropWhile isSpace).reverse.takeWhile isSpace).reverse := by
      rw [trimSpace, ← List.reverse_append, ← a2, List.reverse_reverse]
    apply dropWhile_head isSpace s c
    rw [this, List.head?_append, hc]; rfl
  · intro c hc
    rw [← isSpace_false]
    rw [trimSpace, List.getLast?_reverse] at hc
    exact dropWhile_head isSpace _ c hc

/-! ## Condition -/

def gCondItem : PExpr := .seq [.any, .not (.lit ['=', '>'])]

theorem condItem_ok {c : Char} {cs : Str} (h : ∀ r, cs ≠ '=' :: '>' :: r) (fr) :
    exec (ruleGrammar lib) gCondItem (c :: cs) fr = .ok (.list [.bytes [c], .nil]) cs fr := by
  rw [gCondItem, exec_seq, execSeq_cons, exec_any, anyC]
  simp only []
  rw [execSeq_cons, exec_not, exec_lit_fail h]
  simp only []
  rw [execSeq_nil]; rfl

theorem condItem_nil (fr) : exec (ruleGrammar lib) gCondItem [] fr = .fail := by
  rw [gCondItem, exec_seq, execSeq_cons, exec_any, anyC]

theorem condItem_stop (c : Char) (r : Str) (fr) : exec (ruleGrammar lib) gCondItem (c :: '=' :: '>' :: r) fr = .fail := by
  rw [gCondItem, exec_seq, execSeq_cons, exec_any, anyC]
  simp only []
  rw [execSeq_cons, exec_not, show '=' :: '>' :: r = ['=', '>'] ++ r from rfl, exec_lit_ok]

theorem condItem_inv {cs v cs' fr fr'} (h : exec (ruleGrammar lib) gCondItem cs fr = .ok v cs' fr') :
    ∃ c, cs = c :: cs' ∧ ∀ r, cs' ≠ '=' :: '>' :: r := by
  cases cs with
  | nil => rw [condItem_nil] at h; simp at h
  | cons c cs =>
    by_cases hs : ∃ r, cs = '=' :: '>' :: r
    · obtain ⟨r, rfl⟩ := hs; rw [condItem_stop] at h; simp at h
    · have hs' : ∀ r, cs ≠ '=' :: '>' :: r := fun r hr => hs ⟨r, hr⟩
      rw [condItem_ok hs'] at h
      simp only [COut.ok.injEq] at h
      obtain ⟨-, rfl, -⟩ := h
      exact ⟨c, rfl, hs'⟩

theorem condItem_fail {cs fr} (h : exec (ruleGrammar lib) gCondItem cs fr = .fail) : cs = [] ∨ ∃ c r, cs = c :: '=' :: '>' :: r := by
  cases cs with
  | nil => exact .inl rfl
  | cons c cs =>
    right
    by_cases hs : ∃ r, cs = '=' :: '>' :: r
    · obtain ⟨r, rfl⟩ := hs; exact ⟨c, r, rfl⟩
    · rw [condItem_ok (fun r hr => hs ⟨r, hr⟩)] at h; simp at h

theorem cond_items {c : Char} (hc : isBlank c = true) (r : Str) : ∀ raw, NoArrow raw.tail →
    ∃ vs, vs.length = raw.length ∧ Items (ruleGrammar lib) gCondItem (raw ++ c :: '=' :: '>' :: r) vs (c :: '=' :: '>' :: r)
  | [], _ => ⟨[], rfl, .nil (condItem_stop _ _ _)⟩
  | d :: b, h => by
    have hne : ∀ x, b ++ c :: '=' :: '>' :: r ≠ '=' :: '>' :: x := by
      intro x hx
      match b, h, hx with
      | [], _, hx => simp at hx
      | [e], _, hx =>
        simp at hx; obtain ⟨-, rfl, -⟩ := hx; revert hc; decide
      | e :: f :: b, h, hx =>
        simp at hx; obtain ⟨rfl, rfl, -⟩ := hx
        exact h ⟨[], b, rfl⟩
    have ht : NoArrow b.tail := by
      rintro ⟨a, x, hb⟩
      cases b with
      | nil => simp at hb
      | cons e b => exact h ⟨e :: a, x, by simp at hb; simp [hb]⟩
    obtain ⟨vs, hl, hi⟩ := cond_items hc r b ht
    exact ⟨_ :: vs, by simp [hl], .cons (condItem_ok hne _) hi⟩

theorem cond_items_inv {cs vs cs'} (h : Items (ruleGrammar lib) gCondItem cs vs cs') :
    (cs' = [] ∨ ∃ c r, cs' = c :: '=' :: '>' :: r) ∧ ∃ raw, cs = raw ++ cs' ∧ raw.length = vs.length ∧ NoArrow raw.tail := by
  induction h with
  | nil h => exact ⟨condItem_fail h, [], rfl, rfl, by rintro ⟨a, b, h⟩; simp at h⟩
  | cons h1 _ ih =>
    obtain ⟨hst, raw, rfl, hl, hna⟩ := ih
    obtain ⟨c, rfl, hne⟩ := condItem_inv h1
    refine ⟨hst, c :: raw, rfl, by simp [hl], ?_⟩
    rintro ⟨a, b, hab⟩
    simp only [List.tail_cons] at hab
    cases a with
    | nil => exact hne (b ++ _) (by rw [hab]; rfl)
    | cons x a => rw [hab] at hna; exact hna ⟨a, b, rfl⟩

/-- Where skipped text and the arrow can start with one character before the arrow. -/
theorem skip_arrow {c : Char} {r s x : Str} (hs : Skip s) (h : c :: '=' :: '>' :: r = s ++ '=' :: '>' :: x) :
    s = [c] ∧ isBlank c = true ∧ r = x := by
  cases hs with
  | nil => simp at h
  | @cons u s hu hs =>
    cases hu with
    | blank d hd =>
      simp only [List.cons_append, List.nil_append, List.cons.injEq] at h
      obtain ⟨rfl, h⟩ := h
      rcases skip_cases hs with rfl | ⟨e, t, rfl, he⟩
      · simp at h; exact ⟨rfl, hd, h⟩
      · simp only [List.cons_append, List.cons.injEq] at h
        obtain ⟨rfl, -⟩ := h
        exfalso; revert he; decide
    | comment t ht => simp at h

def gCondPart : PExpr := .zeroOrOne (.seq [g__, .lit ['&', '&'], g__, gCondition])

/-- What the optional condition evaluates to. -/
def condDyn (d : Dyn) : Option GoExpr → Prop
  | none => d = .nil
  | some e => ∃ a b c, d = .list [a, b, c, .expr e]

theorem cond_none {s x : Str} (hs : Skip s) (fr) :
    exec (ruleGrammar lib) gCondPart (s ++ '=' :: '>' :: x) fr = .ok .nil (s ++ '=' :: '>' :: x) fr := by
  have hn : NoSkip ('=' :: '>' :: x) := noSkip_cons (by decide) (by decide)
  have : exec (ruleGrammar lib) (.seq [g__, .lit ['&', '&'], g__, gCondition]) (s ++ '=' :: '>' :: x) Frame.empty = .fail := by
    rw [exec_seq]
    by_cases h0 : s = []
    · subst h0; exact seq_fail (exec_skip1_none hn _)
    · obtain ⟨vs, hv⟩ := exec_skip1 (G := ruleGrammar lib) ⟨hs, h0⟩ hn
      rw [seq_step (hv _)]
      exact seq_fail (exec_lit_head (by simp))
  rw [gCondPart, exec_zeroOrOne, this]

theorem cond_some {s0 s1 raw : Str} {c : Char} {x : Str} {e} (h0 : Skip1 s0) (h1 : Skip1 s1) (hne : raw ≠ []) (hna : NoArrow raw.tail)
    (hc : isBlank c = true) (hns : NoSkip (raw ++ c :: '=' :: '>' :: x)) (hgo : goText lib (conditionText raw) e) :
    ∃ d, condDyn d (some e) ∧ ∀ fr, exec (ruleGrammar lib) gCondPart (s0 ++ '&' :: '&' :: s1 ++ raw ++ c :: '=' :: '>' :: x) fr =
      .ok d (c :: '=' :: '>' :: x) fr := by
  have htxt : s0 ++ '&' :: '&' :: s1 ++ raw ++ c :: '=' :: '>' :: x = s0 ++ ('&' :: '&' :: (s1 ++ (raw ++ c :: '=' :: '>' :: x))) := by simp
  rw [htxt]
  obtain ⟨v1, e1⟩ := exec_skip1 (G := ruleGrammar lib) (rest := '&' :: '&' :: (s1 ++ (raw ++ c :: '=' :: '>' :: x))) h0
    (noSkip_cons (by decide) (by decide))
  have e2 : ∀ fr, exec (ruleGrammar lib) (.lit ['&', '&']) ('&' :: '&' :: (s1 ++ (raw ++ c :: '=' :: '>' :: x))) fr =
    .ok (.bytes ['&', '&']) (s1 ++ (raw ++ c :: '=' :: '>' :: x)) fr := fun fr => exec_lit_ok ['&', '&'] _ _
  obtain ⟨v3, e3⟩ := exec_skip1 (G := ruleGrammar lib) h1 hns
  obtain ⟨vs, hl, hi⟩ := cond_items (lib := lib) hc x raw hna
  have e4 : ∀ fr, exec (ruleGrammar lib) gCondition (raw ++ c :: '=' :: '>' :: x) fr = .ok (.expr e) (c :: '=' :: '>' :: x) fr := by
    intro fr
    have : exec (ruleGrammar lib) (.oneOrMore (.seq [.any, .not (.lit ['=', '>'])])) (raw ++ c :: '=' :: '>' :: x) fr =
        .ok (.list ([] ++ vs)) (c :: '=' :: '>' :: x) fr := by
      rw [exec_oneOrMore]; refine loop_of_items hi ?_
      intro _ h
      rw [List.nil_append] at h
      subst h
      exact hne (List.length_eq_zero_iff.1 hl.symm)
    rw [gCondition, action_eq this, actC, slice_append]
    show (match viaGo lib (conditionText raw) _ with | .ok v => _ | _ => _) = _
    rw [viaGo, hgo]
  refine ⟨.list [.list v1, .bytes ['&', '&'], .list v3, .expr e], ⟨_, _, _, rfl⟩, ?_⟩
  intro fr
  rw [gCondPart, exec_zeroOrOne, exec_seq, seq_step (e1 _), seq_step (e2 _), seq_step (e3 _), seq_step (e4 _), execSeq_nil]
  rfl

theorem cond_inv {cs v cs' fr fr'} (h : exec (ruleGrammar lib) gCondPart cs fr = .ok v cs' fr') :
    fr' = fr ∧ ((v = .nil ∧ cs' = cs) ∨ ∃ s0 s1 raw e, cs = s0 ++ '&' :: '&' :: s1 ++ raw ++ cs' ∧ Skip1 s0 ∧ Skip1 s1 ∧ raw ≠ [] ∧
      NoArrow raw.tail ∧ NoSkip (raw ++ cs') ∧ (cs' = [] ∨ ∃ c r, cs' = c :: '=' :: '>' :: r) ∧ goText lib (conditionText raw) e ∧
      condDyn v (some e)) := by
  obtain ⟨hfr, ⟨fr1, h1⟩ | ⟨-, rfl, rfl⟩⟩ := zeroOrOne_inv h
  · refine ⟨hfr, .inr ?_⟩
    rw [exec_seq] at h1
    obtain ⟨v1, cs1, fr2, g1, h2⟩ := seq_inv h1
    obtain ⟨s0, rfl, k0, -, rfl⟩ := skip1_inv g1
    obtain ⟨v2, cs2, fr3, g2, h3⟩ := seq_inv h2
    obtain ⟨rfl, rfl, rfl⟩ := exec_lit_inv g2
    obtain ⟨v3, cs3, fr4, g3, h4⟩ := seq_inv h3
    obtain ⟨s1, rfl, k1, hns, rfl⟩ := skip1_inv g3
    obtain ⟨v4, cs4, fr5, g4, h5⟩ := seq_inv h4
    obtain ⟨rfl, rfl, rfl⟩ := seq_nil_inv h5
    rw [gCondition] at g4
    obtain ⟨v5, g5, hact⟩ := action_inv g4
    rw [exec_oneOrMore] at g5
    obtain ⟨vs, hi, -, -, hne⟩ := items_of_loop g5
    obtain ⟨hst, raw, rfl, hl, hna⟩ := cond_items_inv hi
    rw [slice_append] at hact
    have hact : viaGo lib (conditionText raw) .expr = .ok v4 := hact
    rw [viaGo] at hact
    cases hgo : goexprParse lib (conditionText raw) with
    | err e => rw [hgo] at hact; simp at hact
    | panic => rw [hgo] at hact; simp at hact
    | ok e =>
      rw [hgo] at hact; simp only [ActOut.ok.injEq] at hact
      subst hact
      refine ⟨s0, s1, raw, e, by simp, k0, k1, ?_, hna, hns, hst, hgo, _, _, _, rfl⟩
      rintro rfl
      simp at hl
      exact hne rfl (by simp [List.length_eq_zero_iff.1 hl.symm])
  · exact ⟨hfr, .inl ⟨rfl, rfl⟩⟩

/-! ## Block -/

def isStop (c : Char) : Bool := c == ' ' || c == '\t' || c == '\r'

def gBlockItem : PExpr := .seq [.not (.cls [' ', '\t', '\r'] [] false), .any]

theorem blockItem (cs fr) : exec (ruleGrammar lib) gBlockItem cs fr = match cs with
    | [] => .fail
    | c :: cs' => if isStop c = true then .fail else .ok (.list [.nil, .bytes [c]]) cs' fr := by
  cases cs with
  | nil =>
    rw [gBlockItem, exec_seq, execSeq_cons, exec_not, exec_cls, clsC]; simp only []
    rw [execSeq_cons, exec_any, anyC]
  | cons c cs =>
    have hin : inClass [' ', '\t', '\r'] [] c = isStop c := by
      simp [inClass, isStop, chr_beq, Bool.or_assoc]
    rw [gBlockItem, exec_seq, execSeq_cons, exec_not, exec_cls, clsC, hin]
    cases h : isStop c with
    | true => simp [h]
    | false =>
      simp only [if_true]
      rw [execSeq_cons, exec_any, anyC]
      simp only []
      rw [execSeq_nil]; simp [h]

theorem block_items (cs : Str) :
    ∃ vs, vs.length = (cs.takeWhile (fun c => !isStop c)).length ∧
      Items (ruleGrammar lib) gBlockItem cs vs (cs.dropWhile (fun c => !isStop c)) := by
  induction cs with
  | nil => exact ⟨[], rfl, .nil (by rw [blockItem])⟩
  | cons c cs ih =>
    obtain ⟨vs, hl, hi⟩ := ih
    cases h : isStop c with
    | true =>
      refine ⟨[], by simp [h], ?_⟩
      simp only [List.dropWhile_cons, h]
      exact .nil (by rw [blockItem]; simp [h])
    | false =>
      refine ⟨.list [.nil, .bytes [c]] :: vs, by simp [h, hl], ?_⟩
      simp only [List.dropWhile_cons, h]
      exact .cons (by rw [blockItem]; simp [h]; rfl) hi

theorem block_exec (cs fr) : exec (ruleGrammar lib) gBlock cs fr = match cs with
    | [] => .fail
    | c :: cs' => if c = '@' ∧ cs'.takeWhile (fun c => !isStop c) ≠ [] then
        .ok (.str (cs'.takeWhile (fun c => !isStop c))) (cs'.dropWhile (fun c => !isStop c)) fr else .fail := by
  cases cs with
  | nil =>
    rw [gBlock]; apply action_fail; rw [exec_seq]; exact seq_fail (exec_lit_head (by simp))
  | cons c cs =>
    by_cases hc : c = '@'
    · subst hc
      obtain ⟨vs, hl, hi⟩ := block_items (lib := lib) cs
      have e1 : exec (ruleGrammar lib) (.lit ['@']) ('@' :: cs) fr = .ok (.bytes ['@']) cs fr := exec_lit_ok ['@'] _ _
      by_cases ht : cs.takeWhile (fun c => !isStop c) = []
      · simp only [ht, ne_eq, not_true, and_false, if_false]
        rw [gBlock]; apply action_fail; rw [exec_seq, seq_step e1]
        apply seq_fail
        rw [exec_oneOrMore]
        have hvs : vs = [] := by rw [ht] at hl; simpa using hl
        subst hvs
        have hi : Items (ruleGrammar lib) (.seq [.not (.cls [' ', '\t', '\r'] [] false), .any]) cs [] (cs.dropWhile (fun c => !isStop c)) := hi
        cases hd : cs.dropWhile (fun c => !isStop c) with
        | nil => rw [hd] at hi; cases hi with | nil hf => rw [execLoop_eq, hf]; rfl
        | cons d ds => rw [hd] at hi; cases hi with | nil hf => rw [execLoop_eq, hf]; rfl
      · have e2 : exec (ruleGrammar lib) (.oneOrMore (.seq [.not (.cls [' ', '\t', '\r'] [] false), .any])) cs fr =
            .ok (.list ([] ++ vs)) (cs.dropWhile (fun c => !isStop c)) fr := by
          rw [exec_oneOrMore]; refine loop_of_items hi ?_
          intro _ h
          rw [List.nil_append] at h; subst h
          exact ht (List.length_eq_zero_iff.1 hl.symm)
        have e3 : ∃ v, exec (ruleGrammar lib) (.seq [.lit ['@'], .oneOrMore (.seq [.not (.cls [' ', '\t', '\r'] [] false), .any])]) ('@' :: cs) fr =
            .ok v (cs.dropWhile (fun c => !isStop c)) fr := by
          rw [exec_seq, seq_step e1, seq_step e2, execSeq_nil]; exact ⟨_, rfl⟩
        obtain ⟨v, e3⟩ := e3
        rw [gBlock, action_eq e3, actC]
        have hs : sliceC ('@' :: cs) (cs.dropWhile (fun c => !isStop c)) = '@' :: cs.takeWhile (fun c => !isStop c) := by
          have := takeWhile_append_dropWhile' (fun c => !isStop c) cs
          generalize cs.takeWhile (fun c => !isStop c) = a at *
          generalize cs.dropWhile (fun c => !isStop c) = b at *
          rw [this]
          exact slice_append ('@' :: a) b
        rw [hs]
        simp [ht]; rfl
    · simp only [hc, false_and, if_false]
      rw [gBlock]; apply action_fail; rw [exec_seq]; exact seq_fail (exec_lit_head (by simpa using hc))

def blockDyn (b : Str) : Dyn := if b = [] then .nil else .str b

theorem block_none {cs : Str} (h : cs.head? ≠ some '@') (fr) : exec (ruleGrammar lib) (.zeroOrOne gBlock) cs fr = .ok .nil cs fr := by
  rw [exec_zeroOrOne, block_exec]
  cases cs with
  | nil => rfl
  | cons c cs => have : c ≠ '@' := by simpa using h
                 simp [this]

theorem block_some {b : Str} {c : Char} {cs : Str} (hb : b ≠ []) (h : ∀ d ∈ b, isStop d = false) (hc : isStop c = true) (fr) :
    exec (ruleGrammar lib) (.zeroOrOne gBlock) ('@' :: (b ++ c :: cs)) fr = .ok (.str b) (c :: cs) fr := by
  have := takeWhile_stop (p := fun c => !isStop c) (t := b) (rest := c :: cs) (fun d hd => by simp [h d hd])
    (by intro d hd; simp at hd; subst hd; simp [hc])
  rw [exec_zeroOrOne, block_exec]
  simp only [this.1, this.2, hb, ne_eq, not_false_iff, and_self, if_true]

theorem block_inv {cs v cs' fr fr'} (h : exec (ruleGrammar lib) (.zeroOrOne gBlock) cs fr = .ok v cs' fr') :
    fr' = fr ∧ ((v = .nil ∧ cs' = cs) ∨ ∃ b, b ≠ [] ∧ v = .str b ∧ cs = '@' :: b ++ cs' ∧ (∀ d ∈ b, isStop d = false) ∧
      (∀ c, cs'.head? = some c → isStop c = true)) := by
  obtain ⟨hfr, ⟨fr1, h1⟩ | ⟨-, rfl, rfl⟩⟩ := zeroOrOne_inv h
  · refine ⟨hfr, .inr ?_⟩
    rw [block_exec] at h1
    cases cs with
    | nil => simp at h1
    | cons c cs =>
      simp only [] at h1
      by_cases hc : c = '@' ∧ cs.takeWhile (fun c => !isStop c) ≠ []
      · rw [if_pos hc] at h1
        simp only [COut.ok.injEq] at h1
        obtain ⟨rfl, rfl, -⟩ := h1
        obtain ⟨rfl, hne⟩ := hc
        refine ⟨_, hne, rfl, ?_, ?_, ?_⟩
        · exact congrArg _ (takeWhile_append_dropWhile' _ _)
        · intro d hd; have := takeWhile_all _ _ d hd; simpa using this
        · intro d hd; have := dropWhile_head _ _ d hd; simpa using this
      · rw [if_neg hc] at h1; simp at h1
  · exact ⟨hfr, .inl ⟨rfl, rfl⟩⟩

/-! ## The rule -/

theorem asValue_valDyn {v : Value} (h : v ≠ .nil) : (valDyn v).asValue = some v := by
  cases v <;> first | rfl | exact absurd rfl h

theorem onRule1_eq {m c b r d} (hm : m ≠ .nil) (hr : r ≠ .nil) (hd : condDyn d c) :
    onRule1 (valDyn m) d (blockDyn b) (valDyn r) = .ok (.rule { «match» := m, condition := c, block := b, result := r }) := by
  rw [onRule1, asValue_valDyn hm, asValue_valDyn hr]
  cases c with
  | none =>
    have hd : d = .nil := hd
    subst hd
    by_cases hb : b = []
    · subst hb; rfl
    · simp only [blockDyn, if_neg hb]; rfl
  | some e =>
    obtain ⟨x, y, z, rfl⟩ := hd
    by_cases hb : b = []
    · subst hb; rfl
    · simp only [blockDyn, if_neg hb]; rfl

theorem isStop_iff (c : Char) : isStop c = true ↔ (c = ' ' ∨ c = '\t' ∨ c = '\r') := by simp [isStop, or_assoc]
theorem isStop_blank {c : Char} (h : isStop c = true) : isBlank c = true := by
  rw [isStop_iff] at h; rcases h with rfl | rfl | rfl <;> decide

theorem raw_noSkip {raw t : Str} {c : Char} {x : Str} {e} (hl : RejectsComment lib) (hne : raw ≠ [])
    (hh : ∀ d, raw.head? = some d → isBlank d = false) (hcm : ∀ x, raw = '/' :: '/' :: x → '\n' ∉ raw)
    (ht : Trimmed (raw.map fun d => if d = '\n' then ' ' else d) t) (hgo : goText lib t e) (hc : isBlank c = true) :
    NoSkip (raw ++ c :: '=' :: '>' :: x) := by
  match raw, hne with
  | d :: raw, _ =>
    have hd := hh d rfl
    by_cases hs : d = '/'
    · subst hs
      cases raw with
      | nil => exact noSkip_slash (by intro h; simp at h; subst h; revert hc; decide)
      | cons d2 raw =>
        by_cases hs2 : d2 = '/'
        · subst hs2
          exfalso
          have hn := hcm raw rfl
          have hmap : (('/' :: '/' :: raw).map fun d => if d = '\n' then ' ' else d) = '/' :: '/' :: raw := by
            have := List.map_congr_left (l := '/' :: '/' :: raw) (f := fun d => if d = '\n' then ' ' else d) (g := id)
              (fun d hd => by
                have : d ≠ '\n' := fun h => hn (h ▸ hd)
                simp [this])
            rw [this, List.map_id]
          rw [hmap] at ht
          obtain ⟨pre, post, h1, h2, -, -⟩ := ht
          have hsl : ∀ c ∈ pre ++ post, c ≠ '/' := by
            rintro c hc rfl; have := h2 _ hc; revert this; decide
          have hpre : pre = [] := by
            cases pre with
            | nil => rfl
            | cons p ps =>
              simp only [List.cons_append, List.cons.injEq] at h1
              exact absurd h1.1.symm (hsl p (by simp))
          subst hpre
          match t, h1, hgo with
          | [], h1, _ => simp at h1; exact hsl '/' (by rw [← h1]; simp) rfl
          | [a], h1, _ => simp at h1; exact hsl '/' (by rw [← h1.2]; simp) rfl
          | a :: b :: t, h1, hgo =>
            simp only [List.nil_append, List.cons_append, List.cons.injEq] at h1
            obtain ⟨rfl, rfl, rfl⟩ := h1
            exact hl t (by intro h; apply hn; simp [h]) ⟨e, goexprParse_ok_iff.1 hgo⟩
        · exact noSkip_slash (by simpa using hs2)
    · exact noSkip_cons hd hs

theorem condText_cont {go ct c x} (h : CondText go ct c) : Cont (ct ++ '=' :: x) := by
  cases h with
  | none hs => exact cont_skip hs (cont_cons (by decide))
  | some h0 _ _ _ _ _ _ _ _ =>
    obtain ⟨h0, hne⟩ := h0
    rcases skip_cases h0 with rfl | ⟨d, t, rfl, hd⟩
    · exact absurd rfl hne
    · refine cont_cons ?_
      rcases hd with hd | rfl
      · exact ⟨blank_not_word hd, (blank_facts hd).1, (blank_facts hd).2.1⟩
      · decide

theorem skip_noSkip_nil {s r : Str} (hs : Skip s) (h : NoSkip (s ++ r)) : s = [] := by
  cases hs with
  | nil => rfl
  | cons hu hs => exact absurd ⟨_, _, hu, by simp; rfl⟩ h

/-- The two places around the optional block. -/
theorem blockText_fwd {bt b X} (h : BlockText bt b) (hX : NoSkip X) (hat : X.head? ≠ some '@') :
    ∃ v1 cs1 cs2 v3, (∀ fr, exec (ruleGrammar lib) g_ (bt ++ X) fr = .ok v1 cs1 fr) ∧
      (∀ fr, exec (ruleGrammar lib) (.zeroOrOne gBlock) cs1 fr = .ok (blockDyn b) cs2 fr) ∧
      (∀ fr, exec (ruleGrammar lib) g_ cs2 fr = .ok v3 X fr) := by
  cases h with
  | none hs =>
    obtain ⟨v1, e1⟩ := exec_skip (G := ruleGrammar lib) hs hX
    obtain ⟨v3, e3⟩ := exec_skip (G := ruleGrammar lib) .nil hX
    exact ⟨_, X, X, _, e1, fun fr => block_none hat fr, e3⟩
  | @some s0 b s1 c hs hb hd hc hs1 =>
    have htxt : (s0 ++ '@' :: b ++ c :: s1) ++ X = s0 ++ ('@' :: (b ++ c :: (s1 ++ X))) := by simp
    rw [htxt]
    obtain ⟨v1, e1⟩ := exec_skip (G := ruleGrammar lib) (rest := '@' :: (b ++ c :: (s1 ++ X))) hs (noSkip_cons (by decide) (by decide))
    have hc' : isStop c = true := (isStop_iff c).2 hc
    obtain ⟨v3, e3⟩ := exec_skip (G := ruleGrammar lib) (Skip.cons (SkipUnit.blank c (isStop_blank hc')) hs1) hX
    have hd' : ∀ d ∈ b, isStop d = false := by
      intro d hdb
      have := hd d hdb
      cases hst : isStop d with
      | false => rfl
      | true => rw [isStop_iff] at hst; rcases hst with h | h | h <;> simp [h] at this
    refine ⟨_, _, c :: (s1 ++ X), .list v3, e1, fun fr => ?_, fun fr => ?_⟩
    · rw [block_some hb hd' hc']; simp [blockDyn, hb]
    · simpa using e3 fr

theorem conditionText_eq {raw t : Str} (h : Trimmed (raw.map fun d => if d = '\n' then ' ' else d) t) : t = conditionText raw :=
  trimmed_unique h

theorem rule_fwd {t r rest} (hl : RejectsComment lib) (h : RuleText (goText lib) t r) (hok : Okay lib r.result rest) (fr) :
    exec (ruleGrammar lib) (.ruleRef .Rule) (t ++ rest) fr = .ok (.rule r) rest fr := by
  cases h with
  | @mk mt m ct c bt b rt r hm hc hb hr =>
  have hok : Okay lib r rest := hok
  have htxt : mt ++ ct ++ '=' :: '>' :: bt ++ rt ++ rest = mt ++ (ct ++ '=' :: ('>' :: (bt ++ (rt ++ rest)))) := by simp
  rw [htxt]
  have e1 := value_fwd hm _ (okay_cont hm (condText_cont (x := '>' :: (bt ++ (rt ++ rest))) hc)) Frame.empty
  have hcond : ∃ d cs1 v2, condDyn d c ∧ (∀ fr, exec (ruleGrammar lib) gCondPart (ct ++ '=' :: ('>' :: (bt ++ (rt ++ rest)))) fr = .ok d cs1 fr) ∧
      (∀ fr, exec (ruleGrammar lib) g_ cs1 fr = .ok v2 ('=' :: ('>' :: (bt ++ (rt ++ rest)))) fr) := by
    have hns : NoSkip ('=' :: ('>' :: (bt ++ (rt ++ rest)))) := noSkip_cons (by decide) (by decide)
    cases hc with
    | none hs =>
      obtain ⟨v2, e2⟩ := exec_skip (G := ruleGrammar lib) hs hns
      exact ⟨.nil, _, _, rfl, fun fr => cond_none hs fr, e2⟩
    | @some s0 s1 raw c t e h0 h1 hne hna hbl hh hcm ht hgo =>
      have hn := raw_noSkip (x := bt ++ (rt ++ rest)) hl hne hh hcm ht hgo hbl
      rw [conditionText_eq ht] at hgo
      obtain ⟨d, hd, e1⟩ := cond_some h0 h1 hne hna hbl hn hgo
      obtain ⟨v2, e2⟩ := exec_skip (G := ruleGrammar lib) (Skip.cons (SkipUnit.blank c hbl) .nil) hns
      refine ⟨d, c :: '=' :: '>' :: (bt ++ (rt ++ rest)), .list v2, hd, fun fr => ?_, fun fr => ?_⟩
      · rw [← e1 fr]; simp
      · simpa using e2 fr
  obtain ⟨d, cs1, v2, hd, e2, e3⟩ := hcond
  have e4 : ∀ fr, exec (ruleGrammar lib) (.lit ['=', '>']) ('=' :: ('>' :: (bt ++ (rt ++ rest)))) fr = .ok (.bytes ['=', '>']) (bt ++ (rt ++ rest)) fr :=
    fun fr => exec_lit_ok ['=', '>'] _ _
  obtain ⟨v5, cs5, cs6, v7, e5, e6, e7⟩ := blockText_fwd (lib := lib) hb (valueText_noSkip (rest := rest) hr) (valueText_head_ne hr rest).2.2.2
  have e8 := value_fwd hr rest hok Frame.empty
  have hseq : ∃ v, exec (ruleGrammar lib) (.seq [.labeled .m (.ruleRef .Value), .labeled .cond gCondPart, g_, .lit ['=', '>'], g_,
      .labeled .block (.zeroOrOne gBlock), g_, .labeled .r (.ruleRef .Value)]) (mt ++ (ct ++ '=' :: ('>' :: (bt ++ (rt ++ rest))))) Frame.empty =
      .ok v rest ((((Frame.empty.set .m (valDyn m)).set .cond d).set .block (blockDyn b)).set .r (valDyn r)) := by
    rw [exec_seq, seq_step (labeled_ok e1), seq_step (labeled_ok (e2 _)), seq_step (e3 _), seq_step (e4 _), seq_step (e5 _),
      seq_step (labeled_ok (e6 _)), seq_step (e7 _), seq_step (labeled_ok e8), execSeq_nil]
    exact ⟨_, rfl⟩
  obtain ⟨v, hv⟩ := hseq
  have hact := action_eq (a := .onRule1) hv
  have hr : (ruleGrammar lib).act .onRule1 ((((Frame.empty.set .m (valDyn m)).set .cond d).set .block (blockDyn b)).set .r (valDyn r))
      (sliceC (mt ++ (ct ++ '=' :: ('>' :: (bt ++ (rt ++ rest))))) rest) = _ :=
    onRule1_eq (b := b) (valueText_ne_nil hm) (valueText_ne_nil hr) hd
  rw [actC, hr] at hact
  exact ruleRef_ok (r := .Rule) hact fr

theorem noSkip_raw {raw cs : Str} (hne : raw ≠ []) (h : NoSkip (raw ++ cs)) :
    (∀ d, raw.head? = some d → isBlank d = false) ∧ (∀ x, raw = '/' :: '/' :: x → '\n' ∉ raw) := by
  constructor
  · intro d hd
    cases raw with
    | nil => simp at hd
    | cons e raw =>
      simp at hd; subst hd
      cases hb : isBlank e with
      | false => rfl
      | true => exact absurd ⟨[e], raw ++ cs, .blank e hb, rfl⟩ h
  · rintro x rfl hn
    have hn : '\n' ∈ x := by simpa using hn
    obtain ⟨a, b, rfl, ha⟩ := List.eq_append_cons_of_mem hn
    exact h ⟨_, b ++ cs, .comment a ha, by simp⟩

theorem rule_sound {cs v cs' fr fr'} (h : exec (ruleGrammar lib) (.ruleRef .Rule) cs fr = .ok v cs' fr') :
    ∃ t r, cs = t ++ cs' ∧ RuleText (goText lib) t r ∧ v = .rule r ∧ Follow r.result cs' ∧ fr' = fr := by
  obtain ⟨rfl, fr1, h⟩ := ruleRef_inv h
  have h : exec (ruleGrammar lib) gRule cs Frame.empty = .ok v cs' fr1 := h
  rw [gRule] at h
  obtain ⟨v0, h0, hact⟩ := action_inv h
  clear h
  rw [exec_seq] at h0
  obtain ⟨v1, cs1, fr1, g1, h1⟩ := seq_inv h0
  obtain ⟨⟨_, p1⟩, rfl⟩ := labeled_inv g1
  obtain ⟨mt, m, rfl, hm, rfl, -, -⟩ := value_sound _ _ _ _ _ _ (Nat.le_refl _) p1
  obtain ⟨v2, cs2, fr2, g2, h2⟩ := seq_inv h1
  obtain ⟨⟨_, p2⟩, rfl⟩ := labeled_inv g2
  have p2 := cond_inv (show exec (ruleGrammar lib) gCondPart _ _ = _ from p2)
  obtain ⟨-, p2⟩ := p2
  obtain ⟨v3, cs3, fr3, g3, h3⟩ := seq_inv h2
  obtain ⟨s3, rfl, k3, -, rfl⟩ := skip_inv g3
  obtain ⟨v4, cs4, fr4, g4, h4⟩ := seq_inv h3
  obtain ⟨rfl, rfl, rfl⟩ := exec_lit_inv g4
  obtain ⟨v5, cs5, fr5, g5, h5⟩ := seq_inv h4
  obtain ⟨s5, rfl, k5, -, rfl⟩ := skip_inv g5
  obtain ⟨v6, cs6, fr6, g6, h6⟩ := seq_inv h5
  obtain ⟨⟨_, p6⟩, rfl⟩ := labeled_inv g6
  obtain ⟨-, p6⟩ := block_inv p6
  obtain ⟨v7, cs7, fr7, g7, h7⟩ := seq_inv h6
  obtain ⟨s7, rfl, k7, -, rfl⟩ := skip_inv g7
  obtain ⟨v8, cs8, fr8, g8, h8⟩ := seq_inv h7
  obtain ⟨⟨_, p8⟩, rfl⟩ := labeled_inv g8
  obtain ⟨rt, r, rfl, hr, rfl, hf, -⟩ := value_sound _ _ _ _ _ _ (Nat.le_refl _) p8
  obtain ⟨rfl, rfl, rfl⟩ := seq_nil_inv h8
  have hact1 : onRule1 (valDyn m) v2 v6 (valDyn r) = .ok v := hact
  clear hact
  have hC : ∃ ct c, cs1 = ct ++ (['=', '>'] ++ (s5 ++ cs5)) ∧ CondText (goText lib) ct c ∧ condDyn v2 c := by
    rcases p2 with ⟨rfl, rfl⟩ | ⟨s0, s1, raw, e, rfl, j0, j1, hne, hna, hns, hst, hgo, hd⟩
    · exact ⟨s3, none, rfl, .none k3, rfl⟩
    · rcases hst with hst | ⟨c, x, hst⟩
      · simp at hst
      · obtain ⟨rfl, hc, rfl⟩ := skip_arrow k3 hst.symm
        have := noSkip_raw hne hns
        refine ⟨s0 ++ '&' :: '&' :: s1 ++ raw ++ [c], some e, by simp, .some j0 j1 hne hna hc this.1 this.2 (trimmed_trim _) hgo, hd⟩
  have hB : ∃ bt b, s5 ++ cs5 = bt ++ (rt ++ cs') ∧ BlockText bt b ∧ v6 = blockDyn b := by
    rcases p6 with ⟨rfl, h'⟩ | ⟨b, hb, rfl, rfl, hd, hst⟩
    · refine ⟨s5 ++ s7, [], ?_, .none (skip_append k5 k7), rfl⟩
      rw [← h']; simp
    · have hd' : ∀ d ∈ b, d ≠ ' ' ∧ d ≠ '\t' ∧ d ≠ '\r' := by
        intro d hdb
        have := hd d hdb
        refine ⟨?_, ?_, ?_⟩ <;> rintro rfl <;> revert this <;> decide
      cases k7 with
      | nil =>
        exfalso
        obtain ⟨c, u, rfl, hcu⟩ := valueText_head hr
        have := isStop_blank (hst c rfl)
        rcases hcu with hcu | rfl | rfl
        · rw [(lower_facts hcu).2.2.2.1] at this; simp at this
        · revert this; decide
        · revert this; decide
      | @cons u s hu hs =>
        cases hu with
        | blank c hc =>
          have := (isStop_iff c).1 (hst c rfl)
          exact ⟨s5 ++ '@' :: b ++ c :: s, b, by simp, .some k5 hb hd' this hs, by simp [blockDyn, hb]⟩
        | comment t ht =>
          exfalso; have := hst '/' rfl
          revert this; decide
  obtain ⟨ct, c, rfl, hc, hd⟩ := hC
  obtain ⟨bt, b, hbt, hb, rfl⟩ := hB
  rw [onRule1_eq (valueText_ne_nil hm) (valueText_ne_nil hr) hd] at hact1
  simp only [ActOut.ok.injEq] at hact1
  refine ⟨mt ++ ct ++ '=' :: '>' :: bt ++ rt, _, ?_, .mk hm hc hb hr, hact1.symm, hf, rfl⟩
  rw [hbt]; simp

end
end Verif.Proof

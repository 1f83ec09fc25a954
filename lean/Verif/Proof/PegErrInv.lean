import Verif.Proof.PegErr
import Verif.Spec.Message
/-! # Invariants of the detailed machine -/
namespace Verif.Proof
open Verif Verif.Spec

mutual
/-- The actions in an expression (not in the rules it refers to), each with the expression whose match triggers it. -/
def actsOf : PExpr → List (Act × PExpr)
  | .action a e => (a, e) :: actsOf e
  | .any => []
  | .cls .. => []
  | .choice es => actsOfs es
  | .labeled _ e => actsOf e
  | .lit _ => []
  | .not e => actsOf e
  | .oneOrMore e => actsOf e
  | .ruleRef _ => []
  | .seq es => actsOfs es
  | .zeroOrMore e => actsOf e
  | .zeroOrOne e => actsOf e
def actsOfs : List PExpr → List (Act × PExpr)
  | [] => []
  | e :: es => actsOf e ++ actsOfs es
end

/-! ## Terminals and how they are written -/

/-- Literals whose notation is clear. -/
def plainLit (val : Str) : Bool := !val.contains '\\' && vocabulary.contains (litWant val)

/-- Classes whose notation is clear. -/
def plainCls (chars : List Char) (ranges : List (Char × Char)) (inverted : Bool) : Bool :=
  vocabulary.contains (clsWant chars ranges inverted) &&
  chars.all (fun c => c != '\\' && c != '-' && c != '^') &&
  ranges.all fun r => r.1 != '\\' && r.1 != '-' && r.1 != '^' && r.2 != '\\'

mutual
def plainE : PExpr → Bool
  | .action _ e => plainE e
  | .any => true
  | .cls a b c => plainCls a b c
  | .choice es => plainEs es
  | .labeled _ e => plainE e
  | .lit v => plainLit v
  | .not e => plainE e
  | .oneOrMore e => plainE e
  | .ruleRef _ => true
  | .seq es => plainEs es
  | .zeroOrMore e => plainE e
  | .zeroOrOne e => plainE e
def plainEs : List PExpr → Bool
  | [] => true
  | e :: es => plainE e && plainEs es
end

theorem plain_rules (r : RuleName) : plainE (gRules r) = true := by cases r <;> decide

/-- `want` is the way a terminal of the grammar is written, and `matched` tells if the rest of the input starts with it. -/
inductive Terminal (rest : List Sym) : (matched : Bool) → (want : Str) → Prop where
  | literal {val matched} : plainLit val = true → (matched = true ↔ val <+: rest.map Sym.rune) → Terminal rest matched (litWant val)
  | cls {chars ranges inverted matched} : plainCls chars ranges inverted = true → (matched = true ↔ ∃ x r, rest = x :: r ∧ inClass chars ranges x.rune ≠ inverted) →
      Terminal rest matched (clsWant chars ranges inverted)
  | any {matched} : (matched = true ↔ rest ≠ []) → Terminal rest matched ['.']

theorem terminal_vocabulary {rest m w} (h : Terminal rest m w) : w ∈ vocabulary := by
  cases h with
  | literal hp _ => simp only [plainLit, Bool.and_eq_true, List.contains_iff_mem] at hp; exact hp.2
  | cls hp _ => simp only [plainCls, Bool.and_eq_true, List.contains_iff_mem] at hp; exact hp.1.1
  | any _ => decide

theorem unescape_plain (c : Char) (l : Str) (h : c ≠ '\\') : unescape (c :: l) = c :: unescape l := by
  rw [unescape]
  · rintro l' rfl; exact absurd rfl h
  · rintro l' rfl; exact absurd rfl h
  · rintro l' rfl; exact absurd rfl h

theorem unescape_esc (val rest : Str) (h : ∀ c ∈ val, c ≠ '\\') : unescape (val.flatMap escChar ++ rest) = val ++ unescape rest := by
  induction val with
  | nil => rfl
  | cons c val ih =>
    have ih := ih fun d hd => h d (List.mem_cons_of_mem _ hd)
    rw [List.flatMap_cons, List.append_assoc]
    generalize val.flatMap escChar ++ rest = tl at *
    unfold escChar
    split
    · simp [unescape, ih]
    · simp [unescape, ih]
    · simp [unescape, ih]
    · rw [List.singleton_append, unescape_plain c _ (h c List.mem_cons_self), ih]; rfl

theorem unescape_id (l : Str) (h : ∀ c ∈ l, c ≠ '\\') : unescape l = l := by
  induction l with
  | nil => rfl
  | cons c l ih => rw [unescape_plain c l (h c List.mem_cons_self), ih fun d hd => h d (List.mem_cons_of_mem _ hd)]

theorem classHas_chars (chars rest : Str) (c : Char) (h : ∀ d ∈ chars, d ≠ '-') (hr : rest.head? ≠ some '-') :
    classHas (chars ++ rest) c = (chars.contains c || classHas rest c) := by
  induction chars with
  | nil => simp
  | cons a chars ih =>
    have ih := ih fun d hd => h d (List.mem_cons_of_mem _ hd)
    rw [List.cons_append, classHas]
    · rw [ih, List.contains_cons, Bool.or_assoc]
      congr 1
      exact Bool.beq_comm ..
    · intro b l e
      cases chars with
      | nil => rw [List.nil_append] at e; rw [e] at hr; exact hr rfl
      | cons d chars =>
        rw [List.cons_append, List.cons.injEq] at e
        exact h d (by simp) e.1

theorem classHas_ranges (ranges : List (Char × Char)) (c : Char) :
    classHas (ranges.flatMap fun r => [r.1, '-', r.2]) c = ranges.any fun r => r.1 ≤ c && c ≤ r.2 := by
  induction ranges with
  | nil => rfl
  | cons r ranges ih =>
    rw [List.flatMap_cons, List.any_cons, ← ih]
    simp [classHas]

/-- The notation means what the terminal is. -/
theorem terminal_follows {rest m w} (h : Terminal rest m w) : follows w (rest.map Sym.rune) = m ∧ ∃ c l, w = c :: l ∧ c ∈ ['"', '[', '.'] := by
  cases h with
  | @literal val m hp h =>
    refine ⟨?_, _, _, rfl, by simp⟩
    have hp : ∀ c ∈ val, c ≠ '\\' := by
      intro c hc e
      subst e
      simp [plainLit, hc] at hp
    have e1 : (val.flatMap escChar ++ ['"']).dropLast = val.flatMap escChar ++ [] := by simp
    show (unescape (val.flatMap escChar ++ ['"']).dropLast).isPrefixOf _ = m
    rw [e1, unescape_esc val [] hp, unescape, List.append_nil, Bool.eq_iff_iff, List.isPrefixOf_iff_prefix, h]
  | @cls chars ranges inverted m hp h =>
    refine ⟨?_, _, _, rfl, by simp⟩
    simp only [plainCls, Bool.and_eq_true, List.all_eq_true, bne_iff_ne, ne_eq] at hp
    obtain ⟨⟨-, hc⟩, hr⟩ := hp
    -- the body of the notation
    generalize hb : chars.flatMap escChar ++ ranges.flatMap (fun r => [r.1, '-', r.2]) = body
    have hread : ∀ c, classHas (unescape body) c = inClass chars ranges c := by
      intro c
      rw [← hb, unescape_esc chars _ fun d hd => (hc d hd).1.1, unescape_id, classHas_chars, classHas_ranges]
      · rfl
      · exact fun d hd => (hc d hd).1.2
      · cases ranges with
        | nil => simp
        | cons r l => simp only [List.flatMap_cons, List.cons_append, List.head?_cons, ne_eq, Option.some.injEq]; exact (hr r List.mem_cons_self).1.1.2
      · intro d hd
        rw [List.mem_flatMap] at hd
        obtain ⟨r, h1, h2⟩ := hd
        have := hr r h1
        simp only [List.mem_cons, List.not_mem_nil, or_false] at h2
        rcases h2 with rfl | rfl | rfl
        · exact this.1.1.1
        · decide
        · exact this.2
    have hhat : body.head? ≠ some '^' := by
      rw [← hb]
      cases chars with
      | nil =>
        cases ranges with
        | nil => simp
        | cons r l => simp only [List.flatMap_nil, List.nil_append, List.flatMap_cons, List.cons_append, List.head?_cons, ne_eq, Option.some.injEq]; exact (hr r List.mem_cons_self).1.2
      | cons d l =>
        have := (hc d List.mem_cons_self).2
        rw [List.flatMap_cons]
        unfold escChar
        split <;> simp_all
    have hdl : (body ++ [']']).dropLast = body := by simp
    have hw : clsWant chars ranges inverted = '[' :: (if inverted then ['^'] else []) ++ body ++ [']'] := by
      rw [← hb]; simp [clsWant]
    rw [hw]
    have hm : ∀ x r, rest = x :: r → (m = (inClass chars ranges x.rune != inverted)) := by
      intro x r e
      rw [Bool.eq_iff_iff, h, bne_iff_ne]
      constructor
      · rintro ⟨y, r', e', k⟩
        rw [e] at e'; cases e'; exact k
      · exact fun k => ⟨x, r, e, k⟩
    cases rest with
    | nil =>
      have : m = false := by
        cases m with
        | false => rfl
        | true => obtain ⟨_, _, k, _⟩ := h.1 rfl; cases k
      rw [this]
      have : ∀ l, follows ('[' :: l) [] = false := by
        intro l
        rw [follows] <;> simp
      cases inverted <;> exact this _
    | cons x r =>
      rw [hm x r rfl]
      cases inverted with
      | true =>
        show (!classHas (unescape (body ++ [']']).dropLast) x.rune) = _
        rw [hdl, hread]
        cases inClass chars ranges x.rune <;> rfl
      | false =>
        have : follows ('[' :: (body ++ [']'])) (x.rune :: r.map Sym.rune) = classHas (unescape (body ++ [']']).dropLast) x.rune := by
          rw [follows]
          intro l e
          cases body with
          | nil => cases e
          | cons d l' => cases e; exact hhat rfl
        show follows ('[' :: (body ++ [']'])) (x.rune :: r.map Sym.rune) = _
        rw [this, hdl, hread]
        cases inClass chars ranges x.rune <;> rfl
  | any h =>
    refine ⟨?_, _, _, rfl, by simp⟩
    cases rest with
    | nil => simp [follows]; simpa using h
    | cons x r => simp [follows]; simpa using h

/-- `P` is kept by everything the machine does. -/
structure DInv (G : Grammar) (data : List Sym) (P : DSt → Prop) : Prop where
  plain : ∀ r, plainE (G.rules r) = true
  at_ : ∀ s, P s → PtAt data s.pt
  failAt : ∀ s pt b w, P s → PtAt data pt → Terminal pt.rest b w → P (s.failAt b pt.pos w)
  read : ∀ s, P s → s.pt.rest ≠ [] → P s.read
  pt : ∀ s pt, P s → PtAt data pt → P { s with pt := pt }
  frame : ∀ s fr, P s → P { s with frame := fr }
  flip : ∀ s, P s → P s.flip
  rstack : ∀ s rs, P s → P { s with rstack := rs }
  action : ∀ n r rs a e s v s', (a, e) ∈ actsOf (G.rules r) → s.rstack = r :: rs → s'.rstack = r :: rs → P s →
    dRun G n e s = some (.ok v s') → P s' → ∀ x, G.act a s'.frame (s'.sliceFrom s.pt) = .err x →
    P (s'.addErrAt (actionProblem G a (s'.sliceFrom s.pt)) s.pt.pos)

/-- The invariant and the rule stack of `s` hold in the outcome. -/
def DPost (P : DSt → Prop) (s : DSt) : Option DOut → Prop
  | some (.ok _ s') => P s' ∧ s'.rstack = s.rstack
  | some (.fail s') => P s' ∧ s'.rstack = s.rstack
  | some (.panic s') => P s' ∧ s'.rstack ≠ []
  | none => True

variable {G : Grammar} {data : List Sym} {P : DSt → Prop}

theorem DInv.restore (H : DInv G data P) {s : DSt} {start : Pt} (h : P s) (hp : PtAt data start) : P (s.restore start) := by
  unfold DSt.restore
  split
  · exact h
  · exact H.pt _ _ h hp

@[simp] theorem restore_rstack (s : DSt) (p : Pt) : (s.restore p).rstack = s.rstack := by unfold DSt.restore; split <;> rfl
@[simp] theorem restore_errs (s : DSt) (p : Pt) : (s.restore p).errs = s.errs := by unfold DSt.restore; split <;> rfl
@[simp] theorem restore_invert (s : DSt) (p : Pt) : (s.restore p).invert = s.invert := by unfold DSt.restore; split <;> rfl
@[simp] theorem restore_frame (s : DSt) (p : Pt) : (s.restore p).frame = s.frame := by unfold DSt.restore; split <;> rfl
@[simp] theorem restore_max (s : DSt) (p : Pt) : (s.restore p).maxFailPos = s.maxFailPos := by unfold DSt.restore; split <;> rfl
@[simp] theorem restore_exp (s : DSt) (p : Pt) : (s.restore p).maxFailExpected = s.maxFailExpected := by unfold DSt.restore; split <;> rfl

theorem DInv.lit (H : DInv G data P) {start : Pt} (hp : PtAt data start) (all : List Char) (hall : plainLit all = true) (val : List Char) :
    ∀ {s : DSt} (done : List Char), P s → all = done ++ val → start.rest.map Sym.rune = done ++ s.pt.rest.map Sym.rune →
    DPost P s (some (dLit start (litWant all) val s)) := by
  induction val with
  | nil =>
    intro s done h e1 e2
    simp only [dLit]
    refine ⟨H.failAt _ _ _ _ h hp (.literal hall ⟨fun _ => ?_, fun _ => rfl⟩), by simp⟩
    rw [e1, e2, List.append_nil]
    exact List.prefix_append _ _
  | cons w val ih =>
    intro s done h e1 e2
    have hf : (¬ w :: val <+: s.pt.rest.map Sym.rune) → DPost P s (some (.fail ((s.failAt false start.pos (litWant all)).restore start))) := by
      intro hne
      refine ⟨H.restore (H.failAt _ _ _ _ h hp (.literal hall ⟨by simp, fun k => ?_⟩)) hp, by simp⟩
      rw [e1, e2, List.prefix_append_right_inj] at k
      exact absurd k hne
    simp only [dLit]
    cases hr : s.pt.rest with
    | nil => exact hf (by simp [hr])
    | cons x r =>
      simp only []
      split
      · rename_i hx
        have := ih (done ++ [w]) (H.read _ h (by simp [hr])) (by rw [e1]; simp) (by rw [e2]; simp [advance_rest, hr, hx])
        generalize dLit start (litWant all) val s.read = o at *
        cases o <;> simpa [DPost] using this
      · rename_i hx
        refine hf ?_
        rw [hr]
        simp only [List.map_cons, List.cons_prefix_cons]
        exact fun k => hx k.1.symm

theorem DInv.cls (H : DInv G data P) (a b c) (hab : plainCls a b c = true) {s : DSt} (h : P s) : DPost P s (some (dCls a b c s)) := by
  have hp := H.at_ _ h
  unfold dCls
  simp only
  cases hr : s.pt.rest with
  | nil => exact ⟨H.failAt _ _ _ _ h hp (.cls hab ⟨by simp, by simp [hr]⟩), by simp⟩
  | cons x r =>
    have h1 : inClass a b x.rune ≠ c → P (s.read.failAt true s.pt.pos (clsWant a b c)) := fun k =>
      H.failAt _ s.pt true (clsWant a b c) (H.read _ h (by simp [hr])) hp (.cls hab ⟨fun _ => ⟨x, r, hr, k⟩, fun _ => rfl⟩)
    have h2 : inClass a b x.rune = c → P (s.failAt false s.pt.pos (clsWant a b c)) := fun k =>
      H.failAt _ s.pt false (clsWant a b c) h hp (.cls hab ⟨by simp, by
        rintro ⟨y, r', e, hy⟩
        rw [hr] at e
        cases e
        exact absurd k hy⟩)
    simp only []
    split <;> split
    · exact ⟨h2 (by simp_all), by simp⟩
    · exact ⟨h1 (by simp_all), by simp⟩
    · exact ⟨h1 (by simp_all), by simp⟩
    · exact ⟨h2 (by simp_all), by simp⟩

theorem DInv.any (H : DInv G data P) {s : DSt} (h : P s) : DPost P s (some (dAny s)) := by
  have hp := H.at_ _ h
  unfold dAny
  simp only
  cases hr : s.pt.rest with
  | nil => exact ⟨H.failAt _ _ _ _ h hp (.any (by simp [hr])), by simp⟩
  | cons x r => exact ⟨H.failAt _ s.pt true _ (H.read _ h (by simp [hr])) hp (.any (by simp [hr])), by simp⟩

theorem DInv.act (H : DInv G data P) {n r rs a e s v s'} (ha : (a, e) ∈ actsOf (G.rules r)) (hs : s.rstack = r :: rs) (hs' : s'.rstack = r :: rs)
    (h : P s) (hrun : dRun G n e s = some (.ok v s')) (h' : P s') : DPost P s (some (dAction G a s.pt s')) := by
  have key := H.action n r rs a e s v s' ha hs hs' h hrun h'
  unfold dAction
  simp only
  cases hact : G.act a s'.frame (s'.sliceFrom s.pt) with
  | ok v => exact ⟨h', by rw [hs, hs']⟩
  | panic => exact ⟨h', by simp [hs']⟩
  | err e => exact ⟨key e hact, by simp [hs, hs']⟩

theorem DInv.pop (H : DInv G data P) {s s0 : DSt} {o} (fr) (h : DPost P s o) (hs : s.rstack = s0.rstack) : DPost P s0 (o.map (dPop fr)) := by
  match o with
  | none => trivial
  | some (.ok v s') => exact ⟨H.frame _ _ h.1, hs ▸ h.2⟩
  | some (.fail s') => exact ⟨H.frame _ _ h.1, hs ▸ h.2⟩
  | some (.panic s') => exact h

theorem DPost.of_rstack {s s0 : DSt} {o} (h : DPost P s o) (hs : s.rstack = s0.rstack) : DPost P s0 o := by
  match o with
  | none => trivial
  | some (.ok v s') => exact ⟨h.1, hs ▸ h.2⟩
  | some (.fail s') => exact ⟨h.1, hs ▸ h.2⟩
  | some (.panic s') => exact h

theorem DInv.all (H : DInv G data P) (n : Nat) :
    (∀ r rs e s, plainE e = true → actsOf e ⊆ actsOf (G.rules r) → s.rstack = r :: rs → P s → DPost P s (dRun G n e s)) ∧
    (∀ r rs es s, plainEs es = true → actsOfs es ⊆ actsOf (G.rules r) → s.rstack = r :: rs → P s → DPost P s (dChoice G n es s)) ∧
    (∀ r rs start es vs s, plainEs es = true → actsOfs es ⊆ actsOf (G.rules r) → s.rstack = r :: rs → PtAt data start → P s → DPost P s (dSeq G n start es vs s)) ∧
    (∀ r rs e need vs s, plainE e = true → actsOf e ⊆ actsOf (G.rules r) → s.rstack = r :: rs → P s → DPost P s (dLoop G n e need vs s)) := by
  induction n with
  | zero => refine ⟨?_, ?_, ?_, ?_⟩ <;> intros <;> simp only [dRun, dChoice, dSeq, dLoop] <;> trivial
  | succ n ih =>
    obtain ⟨ih1, ih2, ih3, ih4⟩ := ih
    have map1 : ∀ r rs e s, plainE e = true → actsOf e ⊆ actsOf (G.rules r) → s.rstack = r :: rs → P s →
        DPost P s ((dRun G n e s.push).map (dPop s.frame)) := by
      intro r rs e s hpl ha hs h
      exact H.pop _ (ih1 r rs e s.push hpl ha hs (H.frame _ _ h)) rfl
    refine ⟨?_, ?_, ?_, ?_⟩
    · intro r rs e s hpl ha hs h
      cases e with
      | action a e =>
        have ha' : actsOf e ⊆ actsOf (G.rules r) := fun x hx => ha (by rw [actsOf]; exact List.mem_cons_of_mem _ hx)
        have := ih1 r rs e s (by simpa only [plainE] using hpl) ha' hs h
        simp only [dRun]
        cases hx : dRun G n e s with
        | none => trivial
        | some o =>
          rw [hx] at this
          cases o with
          | ok v s' => exact H.act (ha (by rw [actsOf]; exact List.mem_cons_self)) hs (this.2.trans hs) h hx this.1
          | fail s' => exact this
          | panic s' => exact this
      | any => simp only [dRun]; exact H.any h
      | cls => simp only [dRun]; exact H.cls _ _ _ (by simpa only [plainE] using hpl) h
      | choice es => simp only [dRun]; exact ih2 r rs es s (by simpa only [plainE] using hpl) (by simpa only [actsOf] using ha) hs h
      | labeled l e =>
        simp only [dRun]
        have := map1 r rs e s (by simpa only [plainE] using hpl) (by simpa only [actsOf] using ha) hs h
        generalize (dRun G n e s.push).map (dPop s.frame) = x at *
        match x with
        | none => trivial
        | some (.ok v s') => exact ⟨H.frame _ _ this.1, this.2⟩
        | some (.fail s') => exact this
        | some (.panic s') => exact this
      | lit v => simp only [dRun]; exact H.lit (H.at_ _ h) v (by simpa only [plainE] using hpl) v [] h rfl rfl
      | not e =>
        simp only [dRun]
        have := H.pop s.frame (ih1 r rs e s.push.flip (by simpa only [plainE] using hpl) (by simpa only [actsOf] using ha) hs (H.flip _ (H.frame _ _ h))) (s0 := s) rfl
        generalize (dRun G n e s.push.flip).map (dPop s.frame) = x at *
        match x with
        | none => trivial
        | some (.ok v s') => exact ⟨H.restore (H.flip _ this.1) (H.at_ _ h), by simp [DSt.flip, this.2]⟩
        | some (.fail s') => exact ⟨H.restore (H.flip _ this.1) (H.at_ _ h), by simp [DSt.flip, this.2]⟩
        | some (.panic s') => exact this
      | oneOrMore e => simp only [dRun]; exact ih4 r rs e _ _ s (by simpa only [plainE] using hpl) (by simpa only [actsOf] using ha) hs h
      | ruleRef q =>
        simp only [dRun]
        have := ih1 q s.rstack (G.rules q) { s.push with rstack := q :: s.rstack } (H.plain q) (fun _ hx => hx) rfl
          (H.rstack _ _ (H.frame _ _ h))
        generalize dRun G n (G.rules q) { s.push with rstack := q :: s.rstack } = x at *
        match x with
        | none => trivial
        | some (.ok v s') => exact ⟨H.rstack { s' with frame := s.frame } s.rstack (H.frame s' s.frame this.1), rfl⟩
        | some (.fail s') => exact ⟨H.rstack { s' with frame := s.frame } s.rstack (H.frame s' s.frame this.1), rfl⟩
        | some (.panic s') => exact this
      | seq es => simp only [dRun]; exact ih3 r rs _ es _ s (by simpa only [plainE] using hpl) (by simpa only [actsOf] using ha) hs (H.at_ _ h) h
      | zeroOrMore e => simp only [dRun]; exact ih4 r rs e _ _ s (by simpa only [plainE] using hpl) (by simpa only [actsOf] using ha) hs h
      | zeroOrOne e =>
        simp only [dRun]
        have := map1 r rs e s (by simpa only [plainE] using hpl) (by simpa only [actsOf] using ha) hs h
        generalize (dRun G n e s.push).map (dPop s.frame) = x at *
        match x with
        | none => trivial
        | some (.ok v s') => exact this
        | some (.fail s') => exact this
        | some (.panic s') => exact this
    · intro r rs es s hpl ha hs h
      cases es with
      | nil => simp only [dChoice]; exact ⟨h, rfl⟩
      | cons e es =>
        rw [dChoice]
        rw [plainEs, Bool.and_eq_true] at hpl
        have he : actsOf e ⊆ actsOf (G.rules r) := fun x hx => ha (by rw [actsOfs]; exact List.mem_append_left _ hx)
        have hes : actsOfs es ⊆ actsOf (G.rules r) := fun x hx => ha (by rw [actsOfs]; exact List.mem_append_right _ hx)
        have := map1 r rs e s hpl.1 he hs h
        generalize (dRun G n e s.push).map (dPop s.frame) = x at *
        match x with
        | none => trivial
        | some (.ok v s') => exact this
        | some (.fail s') => exact (ih2 r rs es s' hpl.2 hes (this.2.trans hs) this.1).of_rstack this.2
        | some (.panic s') => exact this
    · intro r rs start es vs s hpl ha hs hp h
      cases es with
      | nil => simp only [dSeq]; exact ⟨h, rfl⟩
      | cons e es =>
        rw [dSeq]
        rw [plainEs, Bool.and_eq_true] at hpl
        have he : actsOf e ⊆ actsOf (G.rules r) := fun x hx => ha (by rw [actsOfs]; exact List.mem_append_left _ hx)
        have hes : actsOfs es ⊆ actsOf (G.rules r) := fun x hx => ha (by rw [actsOfs]; exact List.mem_append_right _ hx)
        have := ih1 r rs e s hpl.1 he hs h
        generalize dRun G n e s = x at *
        match x with
        | none => trivial
        | some (.ok v s') => exact (ih3 r rs start es _ s' hpl.2 hes (this.2.trans hs) hp this.1).of_rstack this.2
        | some (.fail s') => exact ⟨H.restore this.1 hp, by simp [this.2]⟩
        | some (.panic s') => exact this
    · intro r rs e need vs s hpl ha hs h
      rw [dLoop]
      have := map1 r rs e s hpl ha hs h
      generalize (dRun G n e s.push).map (dPop s.frame) = x at *
      match x with
      | none => trivial
      | some (.ok v s') => exact (ih4 r rs e need _ s' hpl ha (this.2.trans hs) this.1).of_rstack this.2
      | some (.fail s') =>
        show DPost P s (if (need && vs.isEmpty) = true then some (.fail s') else some (.ok (.list vs) s'))
        split <;> exact this
      | some (.panic s') => exact this

/-- The invariant holds after a rule. -/
theorem DInv.rule (H : DInv G data P) (n : Nat) (q : RuleName) {s : DSt} (h : P s) : DPost P s (dRun G n (.ruleRef q) s) := by
  cases n with
  | zero => simp only [dRun]; trivial
  | succ n =>
    simp only [dRun]
    have := (H.all n).1 q s.rstack (G.rules q) { s.push with rstack := q :: s.rstack } (H.plain q) (fun _ hx => hx) rfl (H.rstack _ _ (H.frame _ _ h))
    generalize dRun G n (G.rules q) { s.push with rstack := q :: s.rstack } = x at *
    match x with
    | none => trivial
    | some (.ok v s') => exact ⟨H.rstack { s' with frame := s.frame } s.rstack (H.frame s' s.frame this.1), rfl⟩
    | some (.fail s') => exact ⟨H.rstack { s' with frame := s.frame } s.rstack (H.frame s' s.frame this.1), rfl⟩
    | some (.panic s') => exact this

end Verif.Proof

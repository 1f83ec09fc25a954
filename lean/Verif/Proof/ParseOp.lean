import Verif.Proof.Lex
/-!
# Opcodes: the grammar against `OpWF` and `showOp`
-/
namespace Verif.Proof
open Verif Verif.Spec

section
variable {lib : GoLib}

theorem action_eq {G : Grammar} {a e cs fr v cs' fr'} (h : exec G e cs fr = .ok v cs' fr') :
    exec G (.action a e) cs fr = actC G a cs cs' fr' := by
  rw [exec_action, h]

theorem action_inv {G : Grammar} {a e cs fr v cs' fr'} (h : exec G (.action a e) cs fr = .ok v cs' fr') :
    ∃ v1, exec G e cs fr = .ok v1 cs' fr' ∧ G.act a fr' (sliceC cs cs') = .ok v := by
  rw [exec_action] at h
  cases he : exec G e cs fr with
  | fail => rw [he] at h; simp at h
  | abort => rw [he] at h; simp at h
  | ok v1 cs1 fr1 =>
    rw [he] at h
    simp only [actC] at h
    cases ha : G.act a fr1 (sliceC cs cs1) with
    | ok w =>
      rw [ha] at h; simp only [COut.ok.injEq] at h
      obtain ⟨rfl, rfl, rfl⟩ := h
      exact ⟨v1, rfl, ha⟩
    | err e => rw [ha] at h; simp at h
    | panic => rw [ha] at h; simp at h

theorem action_fail {G : Grammar} {a e cs fr} (h : exec G e cs fr = .fail) : exec G (.action a e) cs fr = .fail := by
  rw [exec_action, h]

theorem labeled_ok {G : Grammar} {l e cs fr v cs' fr'} (h : exec G e cs Frame.empty = .ok v cs' fr') :
    exec G (.labeled l e) cs fr = .ok v cs' (fr.set l v) := by
  rw [exec_labeled, h]

theorem labeled_inv {G : Grammar} {l e cs fr v cs' fr'} (h : exec G (.labeled l e) cs fr = .ok v cs' fr') :
    (∃ fr1, exec G e cs Frame.empty = .ok v cs' fr1) ∧ fr' = fr.set l v := by
  rw [exec_labeled] at h
  cases he : exec G e cs Frame.empty with
  | ok v1 cs1 fr1 =>
    rw [he] at h; simp only [COut.ok.injEq] at h
    obtain ⟨rfl, rfl, rfl⟩ := h
    exact ⟨⟨fr1, rfl⟩, rfl⟩
  | fail => rw [he] at h; simp at h
  | abort => rw [he] at h; simp at h

theorem labeled_fail {G : Grammar} {l e cs fr} (h : exec G e cs Frame.empty = .fail) : exec G (.labeled l e) cs fr = .fail := by
  rw [exec_labeled, h]

/-! ## Words -/

theorem opPart_fwd {a x rest fr} (ha : a = .onSExpr26 ∨ a = .onSExpr33 ∨ a = .onSExpr40) (hx : Word x) (hr : Stops isWordChar rest) :
    exec (ruleGrammar lib) (.action a gOpPart) (x ++ rest) fr = .ok (.opcode x) rest fr := by
  obtain ⟨v, hv⟩ := word_fwd (G := ruleGrammar lib) (fr := fr) hx hr
  rw [action_eq hv, actC, slice_append]
  rcases ha with rfl | rfl | rfl <;> rfl

theorem opPart_inv {a cs v cs' fr fr'} (ha : a = .onSExpr26 ∨ a = .onSExpr33 ∨ a = .onSExpr40)
    (h : exec (ruleGrammar lib) (.action a gOpPart) cs fr = .ok v cs' fr') :
    ∃ x, cs = x ++ cs' ∧ Word x ∧ Stops isWordChar cs' ∧ v = .opcode x ∧ fr' = fr := by
  obtain ⟨v1, h1, h2⟩ := action_inv h
  obtain ⟨x, rfl, hx, hs, rfl⟩ := word_inv h1
  rw [slice_append] at h2
  refine ⟨x, rfl, hx, hs, ?_, rfl⟩
  rcases ha with rfl | rfl | rfl <;> · simp only [ruleGrammar, gAct, ActOut.ok.injEq] at h2; exact h2.symm

/-! ## Alternations -/

/-- One `|word`. -/
def gAltItem : PExpr := .seq [.lit ['|'], .action .onSExpr40 gOpPart]

def altDyn (c : Str) : Dyn := .list [.bytes ['|'], .opcode c]

theorem altItem_fwd {c rest} (hc : Word c) (hr : Stops isWordChar rest) :
    exec (ruleGrammar lib) gAltItem ('|' :: c ++ rest) Frame.empty = .ok (altDyn c) rest Frame.empty := by
  have e0 : exec (ruleGrammar lib) (.lit ['|']) ('|' :: c ++ rest) Frame.empty = .ok (.bytes ['|']) (c ++ rest) Frame.empty :=
    exec_lit_ok ['|'] _ _
  rw [gAltItem, exec_seq, seq_step e0, seq_step (opPart_fwd (by simp) hc hr), execSeq_nil]
  rfl

theorem altItem_inv {cs v cs' fr'} (h : exec (ruleGrammar lib) gAltItem cs Frame.empty = .ok v cs' fr') :
    ∃ c, cs = '|' :: c ++ cs' ∧ Word c ∧ Stops isWordChar cs' ∧ v = altDyn c := by
  rw [gAltItem, exec_seq] at h
  obtain ⟨v1, cs1, fr1, h1, h⟩ := seq_inv h
  obtain ⟨rfl, rfl, rfl⟩ := exec_lit_inv h1
  obtain ⟨v2, cs2, fr2, h2, h⟩ := seq_inv h
  obtain ⟨x, rfl, hx, hs, rfl, rfl⟩ := opPart_inv (by simp) h2
  obtain ⟨rfl, rfl, rfl⟩ := seq_nil_inv h
  exact ⟨x, rfl, hx, hs, rfl⟩

theorem altItem_none {cs} (h : cs.head? ≠ some '|') : exec (ruleGrammar lib) gAltItem cs Frame.empty = .fail := by
  rw [gAltItem, exec_seq]; exact seq_fail (exec_lit_head h)

theorem altItems_fwd {cs : List Str} {rest : Str} (hc : ∀ c ∈ cs, Word c) (hr : Stops isWordChar rest) (hb : rest.head? ≠ some '|') :
    Items (ruleGrammar lib) gAltItem (cs.flatMap (fun c => '|' :: c) ++ rest) (cs.map altDyn) rest := by
  induction cs with
  | nil => exact .nil (altItem_none hb)
  | cons c cs ih =>
    have h1 := ih (fun d hd => hc d (by simp [hd]))
    have hs : Stops isWordChar (cs.flatMap (fun c => '|' :: c) ++ rest) := by
      cases cs with
      | nil => exact hr
      | cons d cs => intro x hx; simp at hx; subst hx; decide
    have h2 := altItem_fwd (lib := lib) (hc c (by simp)) hs
    simp only [List.flatMap_cons, List.map_cons, List.append_assoc, List.cons_append] at h1 h2 ⊢
    exact .cons h2 h1

theorem altItems_inv {cs vs cs'} (h : Items (ruleGrammar lib) gAltItem cs vs cs') :
    ∃ alts : List Str, cs = alts.flatMap (fun c => '|' :: c) ++ cs' ∧ vs = alts.map altDyn ∧ (∀ c ∈ alts, Word c) := by
  induction h with
  | nil _ => exact ⟨[], rfl, rfl, by simp⟩
  | cons h1 _ ih =>
    obtain ⟨alts, rfl, rfl, h3⟩ := ih
    obtain ⟨c, rfl, hc, -, rfl⟩ := altItem_inv h1
    refine ⟨c :: alts, by simp, rfl, ?_⟩
    intro d hd
    rcases List.mem_cons.1 hd with rfl | hd
    · exact hc
    · exact h3 d hd

theorem altDyn_mapM (cs : List Str) :
    (cs.map altDyn).mapM (fun is => (do (← is.index 1).asOpcode : Option Str)) = some cs := by
  induction cs with
  | nil => rfl
  | cons c cs ih =>
    rw [List.map_cons, List.mapM_cons, ih]
    rfl

theorem opAlt_act (c : Str) (cs : List Str) (fr : Frame) (text : Str) :
    (ruleGrammar lib).act .onSExpr29 ((fr.set .first (.opcode c)).set .rest (.list (cs.map altDyn))) text = .ok (.opcodeAlt (c :: cs)) := by
  show onSExpr29 (.opcode c) (.list (cs.map altDyn)) = _
  have h : onSExpr29 (.opcode c) (.list (cs.map altDyn)) =
    orPanic (((cs.map altDyn).mapM (fun is => (do (← is.index 1).asOpcode : Option Str))).bind fun cs => some (.opcodeAlt (c :: cs))) := rfl
  rw [h, altDyn_mapM]; rfl

theorem opAlt_fwd {cs rest} (hc : PartWF (.alt cs)) (fr) :
    ∃ fr', exec (ruleGrammar lib) gOpAlt (showAlt cs ++ rest) fr = .ok (.opcodeAlt cs) rest fr' := by
  obtain ⟨h2, hw⟩ := hc
  cases cs with
  | nil => simp at h2
  | cons c cs =>
    have e0 : exec (ruleGrammar lib) (.lit ['(']) (showAlt (c :: cs) ++ rest) fr =
        .ok (.bytes ['(']) (c ++ (cs.flatMap (fun c => '|' :: c) ++ ')' :: rest)) fr := by
      have := exec_lit_ok (G := ruleGrammar lib) ['('] (c ++ (cs.flatMap (fun c => '|' :: c) ++ ')' :: rest)) fr
      simpa [showAlt] using this
    have hs : Stops isWordChar (cs.flatMap (fun c => '|' :: c) ++ ')' :: rest) := by
      cases cs with
      | nil => intro x hx; simp at hx; subst hx; decide
      | cons d cs => intro x hx; simp at hx; subst hx; decide
    have e1 := labeled_ok (l := .first) (fr := fr) (opPart_fwd (lib := lib) (a := .onSExpr33) (by simp) (hw c (by simp)) hs)
    have e2 := altItems_fwd (lib := lib) (cs := cs) (rest := ')' :: rest) (fun d hd => hw d (by simp [hd]))
      (by intro x hx; simp at hx; subst hx; decide) (by simp)
    have e3 : exec (ruleGrammar lib) (.oneOrMore gAltItem) (cs.flatMap (fun c => '|' :: c) ++ ')' :: rest) Frame.empty =
        .ok (.list (cs.map altDyn)) (')' :: rest) Frame.empty := by
      rw [exec_oneOrMore]
      refine loop_of_items (vs := []) e2 ?_
      intro _; cases cs with
      | nil => simp at h2
      | cons d cs => simp
    have e4 : exec (ruleGrammar lib) (.lit [')']) (')' :: rest) ((fr.set .first (.opcode c)).set .rest (.list (cs.map altDyn))) =
        .ok (.bytes [')']) rest _ := exec_lit_ok [')'] rest _
    have e := seq_step (es := [.labeled .first (.action .onSExpr33 gOpPart), .labeled .rest (.oneOrMore gAltItem), .lit [')']]) (vs := []) e0
    rw [seq_step e1, seq_step (labeled_ok e3), seq_step e4, execSeq_nil, ← exec_seq] at e
    refine ⟨(fr.set .first (.opcode c)).set .rest (.list (cs.map altDyn)), ?_⟩
    rw [gOpAlt]
    have e5 := action_eq (a := .onSExpr29) e
    rw [actC, opAlt_act] at e5
    exact e5

theorem opAlt_inv {cs v cs' fr fr'} (h : exec (ruleGrammar lib) gOpAlt cs fr = .ok v cs' fr') :
    ∃ alts, cs = showAlt alts ++ cs' ∧ PartWF (.alt alts) ∧ v = .opcodeAlt alts := by
  rw [gOpAlt] at h
  obtain ⟨v1, h1, ha⟩ := action_inv h
  rw [exec_seq] at h1
  obtain ⟨v1, cs1, fr1, g1, h1a⟩ := seq_inv h1
  clear h1
  obtain ⟨rfl, rfl, rfl⟩ := exec_lit_inv g1
  obtain ⟨v2, cs2, fr2, g2, h1b⟩ := seq_inv h1a
  obtain ⟨⟨fr3, g3⟩, rfl⟩ := labeled_inv g2
  obtain ⟨x, rfl, hx, hs, rfl, rfl⟩ := opPart_inv (by simp) g3
  obtain ⟨v4, cs4, fr4, g4, h1c⟩ := seq_inv h1b
  obtain ⟨⟨fr5, g5⟩, rfl⟩ := labeled_inv g4
  rw [exec_oneOrMore] at g5
  obtain ⟨vs, hi, rfl, rfl, hne⟩ := items_of_loop g5
  obtain ⟨alts, rfl, rfl, hw⟩ := altItems_inv hi
  obtain ⟨v6, cs6, fr6, g6, h1d⟩ := seq_inv h1c
  obtain ⟨rfl, rfl, rfl⟩ := exec_lit_inv g6
  obtain ⟨rfl, rfl, rfl⟩ := seq_nil_inv h1d
  rw [List.nil_append, opAlt_act] at ha
  simp only [ActOut.ok.injEq] at ha
  refine ⟨x :: alts, by simp [showAlt], ⟨?_, ?_⟩, ha.symm⟩
  · have := hne rfl
    cases alts with
    | nil => simp at this
    | cons _ _ => simp
  · intro c hc
    rcases List.mem_cons.1 hc with rfl | hc
    · exact hx
    · exact hw c hc

theorem opAlt_none {cs fr} (h : cs.head? ≠ some '(') : exec (ruleGrammar lib) gOpAlt cs fr = .fail := by
  rw [gOpAlt]; apply action_fail; rw [exec_seq]; exact seq_fail (exec_lit_head h)

/-! ## Parts -/

def gPart : PExpr := .choice [.action .onSExpr26 gOpPart, gOpAlt]

def partDyn : OpPart → Dyn
  | .opcode s => .opcode s
  | .alt cs => .opcodeAlt cs
  | .nil => .nil

theorem part_fwd {p rest} (hp : PartWF p) (hr : isPlain p = true → Stops isWordChar rest) :
    exec (ruleGrammar lib) gPart (showPart p ++ rest) Frame.empty = .ok (partDyn p) rest Frame.empty := by
  rw [gPart, exec_choice, execChoice_cons]
  cases p with
  | nil => exact absurd hp (by simp [PartWF])
  | opcode s => rw [showPart, opPart_fwd (by simp) hp (hr rfl)]; rfl
  | alt cs =>
    obtain ⟨fr', h⟩ := opAlt_fwd (lib := lib) (rest := rest) hp Frame.empty
    have h1 : exec (ruleGrammar lib) (.action .onSExpr26 gOpPart) (showAlt cs ++ rest) Frame.empty = .fail := by
      apply action_fail; apply word_none
      cases cs with
      | nil => exact absurd hp (by simp [PartWF])
      | cons c cs => intro x hx; simp [showAlt] at hx; subst hx; decide
    rw [showPart, h1]; simp only []
    rw [execChoice_cons, h]; rfl

theorem part_inv {cs v cs' fr'} (h : exec (ruleGrammar lib) gPart cs Frame.empty = .ok v cs' fr') :
    ∃ p, cs = showPart p ++ cs' ∧ PartWF p ∧ v = partDyn p ∧ (isPlain p = true → Stops isWordChar cs') := by
  rw [gPart, exec_choice, execChoice_cons] at h
  cases he : exec (ruleGrammar lib) (.action .onSExpr26 gOpPart) cs Frame.empty with
  | ok v1 cs1 fr1 =>
    rw [he] at h; simp only [COut.ok.injEq] at h
    obtain ⟨rfl, rfl, rfl⟩ := h
    obtain ⟨x, rfl, hx, hs, rfl, rfl⟩ := opPart_inv (by simp) he
    exact ⟨.opcode x, rfl, hx, rfl, fun _ => hs⟩
  | abort => rw [he] at h; simp at h
  | fail =>
    rw [he] at h; simp only [] at h
    rw [execChoice_cons] at h
    cases he : exec (ruleGrammar lib) gOpAlt cs Frame.empty with
    | ok v1 cs1 fr1 =>
      rw [he] at h; simp only [COut.ok.injEq] at h
      obtain ⟨rfl, rfl, rfl⟩ := h
      obtain ⟨alts, rfl, hw, rfl⟩ := opAlt_inv he
      exact ⟨.alt alts, rfl, hw, rfl, fun h => by simp [isPlain] at h⟩
    | abort => rw [he] at h; simp at h
    | fail => rw [he] at h; simp [execChoice_nil] at h

theorem part_none {cs} (h1 : Stops isWordChar cs) (h2 : cs.head? ≠ some '(') : exec (ruleGrammar lib) gPart cs Frame.empty = .fail := by
  rw [gPart, exec_choice, execChoice_cons, action_fail (word_none h1)]
  simp only []
  rw [execChoice_cons, opAlt_none h2]
  simp only [execChoice_nil]

theorem word_head {s rest : Str} (h : Word s) : ∃ c, (s ++ rest).head? = some c ∧ isWordChar c = true := by
  cases s with
  | nil => exact absurd rfl h.1
  | cons c s => exact ⟨c, rfl, h.2 c (by simp)⟩

theorem alt_head {cs : List Str} {rest : Str} (h : PartWF (.alt cs)) : (showAlt cs ++ rest).head? = some '(' := by
  cases cs with
  | nil => exact absurd h (by simp [PartWF])
  | cons c cs => simp [showAlt]

theorem parts_fwd {ps : List OpPart} {rest : Str} (hp : ∀ p ∈ ps, PartWF p) (ha : NoAdjacentPlain ps) (h1 : Stops isWordChar rest) (h2 : rest.head? ≠ some '(') :
    Items (ruleGrammar lib) gPart (ps.flatMap showPart ++ rest) (ps.map partDyn) rest := by
  induction ps with
  | nil => exact .nil (part_none h1 h2)
  | cons p ps ih =>
    have ha' : NoAdjacentPlain ps := by
      cases ps with
      | nil => trivial
      | cons q ps => exact ha.2
    have hi := ih (fun q hq => hp q (by simp [hq])) ha'
    have hs : isPlain p = true → Stops isWordChar (ps.flatMap showPart ++ rest) := by
      intro hpl
      cases ps with
      | nil => exact h1
      | cons q ps =>
        have hq := hp q (by simp)
        cases q with
        | nil => exact absurd hq (by simp [PartWF])
        | opcode s => exact absurd ⟨hpl, rfl⟩ ha.1
        | alt cs =>
          intro x hx
          rw [List.flatMap_cons, showPart, List.append_assoc, alt_head hq] at hx
          simp at hx; subst hx; decide
    have := part_fwd (lib := lib) (hp p (by simp)) hs
    rw [List.flatMap_cons, List.map_cons, List.append_assoc]
    exact .cons this hi

theorem parts_inv {cs vs cs'} (h : Items (ruleGrammar lib) gPart cs vs cs') :
    ∃ ps : List OpPart, cs = ps.flatMap showPart ++ cs' ∧ vs = ps.map partDyn ∧ (∀ p ∈ ps, PartWF p) ∧ NoAdjacentPlain ps := by
  induction h with
  | nil _ => exact ⟨[], rfl, rfl, by simp, trivial⟩
  | cons h1 _ ih =>
    obtain ⟨ps, rfl, rfl, h3, h4⟩ := ih
    obtain ⟨p, rfl, hp, rfl, hs⟩ := part_inv h1
    refine ⟨p :: ps, by simp, rfl, ?_, ?_⟩
    · intro q hq
      rcases List.mem_cons.1 hq with rfl | hq
      · exact hp
      · exact h3 q hq
    · cases ps with
      | nil => trivial
      | cons q ps =>
        refine ⟨?_, h4⟩
        rintro ⟨hpl, hql⟩
        have hq := h3 q (by simp)
        cases q with
        | opcode s =>
          obtain ⟨c, hc, hw⟩ := word_head (rest := ps.flatMap showPart ++ _) hq
          have := hs hpl c (by rw [List.flatMap_cons, showPart, List.append_assoc]; exact hc)
          rw [hw] at this; simp at this
        | alt cs => simp [isPlain] at hql
        | nil => simp [isPlain] at hql

def opDyn : Op → Dyn
  | .opcode s => .opcode s
  | .parts ps => .opcodeParts ps
  | .nil => .nil

theorem partDyn_mapM {ps : List OpPart} (h : ∀ p ∈ ps, PartWF p) : (ps.map partDyn).mapM Dyn.asOpPart = some ps := by
  induction ps with
  | nil => rfl
  | cons p ps ih =>
    rw [List.map_cons, List.mapM_cons, ih (fun q hq => h q (by simp [hq]))]
    have hp := h p (by simp)
    cases p with
    | nil => exact absurd hp (by simp [PartWF])
    | opcode s => rfl
    | alt cs => rfl

theorem op_act_one (s : Str) : onSExpr22 (.list [.opcode s]) = .ok (.opcode s) := rfl

theorem op_act_parts {ps : List OpPart} (h : ∀ p ∈ ps, PartWF p) (hs : ∀ s, ps ≠ [.opcode s]) :
    onSExpr22 (.list (ps.map partDyn)) = .ok (.opcodeParts ps) := by
  simp only [onSExpr22, Dyn.asList, Option.bind_eq_bind, Option.bind_some]
  rw [partDyn_mapM h]
  simp only [Option.bind_some]
  first
    | rfl
    | (split
       · rename_i s; exact absurd rfl (hs s)
       · rfl)

theorem op_fwd {op rest} (hw : OpWF op) (h1 : Stops isWordChar rest) (h2 : rest.head? ≠ some '(') (fr) :
    ∃ fr', exec (ruleGrammar lib) gOp (showOp op ++ rest) fr = .ok (opDyn op) rest fr' := by
  have key : ∀ ps : List OpPart, ps ≠ [] → (∀ p ∈ ps, PartWF p) → NoAdjacentPlain ps →
      exec (ruleGrammar lib) gOp (ps.flatMap showPart ++ rest) fr =
        actC (ruleGrammar lib) .onSExpr22 (ps.flatMap showPart ++ rest) rest (fr.set .parts (.list (ps.map partDyn))) := by
    intro ps hne hp ha
    have hi := parts_fwd (lib := lib) hp ha h1 h2
    rw [gOp]
    apply action_eq
    apply labeled_ok (fr' := Frame.empty)
    rw [show PExpr.choice [.action .onSExpr26 gOpPart, gOpAlt] = gPart from rfl, exec_oneOrMore]
    exact loop_of_items (vs := []) hi (by intro _; simpa using hne)
  cases op with
  | nil => exact absurd hw (by simp [OpWF])
  | opcode s =>
    have := key [.opcode s] (by simp) (by intro p hp; simp at hp; subst hp; exact hw) trivial
    simp only [List.flatMap_cons, List.flatMap_nil, List.append_nil, showPart] at this
    refine ⟨fr.set .parts (.list [.opcode s]), ?_⟩
    rw [showOp, this, actC]
    rfl
  | parts ps =>
    obtain ⟨w1, w2, w3, w4⟩ := hw
    refine ⟨fr.set .parts (.list (ps.map partDyn)), ?_⟩
    rw [showOp, key ps w1 w2 w3, actC]
    show (match onSExpr22 (.list (ps.map partDyn)) with | .ok v => _ | _ => _) = _
    rw [op_act_parts w2 w4]; rfl

theorem op_inv {cs v cs' fr fr'} (h : exec (ruleGrammar lib) gOp cs fr = .ok v cs' fr') :
    ∃ op, cs = showOp op ++ cs' ∧ OpWF op ∧ v = opDyn op := by
  rw [gOp] at h
  obtain ⟨v1, h1, ha⟩ := action_inv h
  obtain ⟨⟨fr1, g1⟩, rfl⟩ := labeled_inv h1
  rw [show PExpr.choice [.action .onSExpr26 gOpPart, gOpAlt] = gPart from rfl, exec_oneOrMore] at g1
  obtain ⟨vs, hi, rfl, rfl, hne⟩ := items_of_loop g1
  obtain ⟨ps, rfl, rfl, h3, h4⟩ := parts_inv hi
  have ha : onSExpr22 (.list (ps.map partDyn)) = .ok v := ha
  by_cases hs : ∃ s, ps = [.opcode s]
  · obtain ⟨s, rfl⟩ := hs
    have ha : onSExpr22 (.list [.opcode s]) = .ok v := ha
    rw [op_act_one] at ha; simp only [ActOut.ok.injEq] at ha
    exact ⟨.opcode s, by simp [showOp, showPart], h3 (.opcode s) (by simp), ha.symm⟩
  · have hs : ∀ s, ps ≠ [.opcode s] := fun s hc => hs ⟨s, hc⟩
    rw [op_act_parts h3 hs] at ha; simp only [ActOut.ok.injEq] at ha
    refine ⟨.parts ps, rfl, ⟨?_, h3, h4, hs⟩, ha.symm⟩
    intro hc; subst hc; exact hne rfl rfl

theorem op_none {cs fr} (h1 : Stops isWordChar cs) (h2 : cs.head? ≠ some '(') : exec (ruleGrammar lib) gOp cs fr = .fail := by
  rw [gOp]; apply action_fail; apply labeled_fail
  rw [show PExpr.choice [.action .onSExpr26 gOpPart, gOpAlt] = gPart from rfl, exec_oneOrMore, execLoop_eq, part_none h1 h2]
  rfl

end
end Verif.Proof

import Verif.Proof.Smt2Gen
import Verif.Proof.Message
/-!
# Proofs about the error messages of the generator
-/
namespace Verif

open Verif.Spec Verif.Spec.Smt Verif.Spec.Ssa

theorem wrong_unique {s : Srt} {v : Value} {c d : Cause} (h : Wrong s v c) (k : Wrong s v d) : c = d := by
  cases h <;> cases k <;> (try rfl) <;> grind [bareHdr]

theorem fragments_split {s : Srt} : ∀ {a b : List Value}, Fragments s (a ++ b) → Fragments s a ∧ Fragments s b
  | [], _, h => ⟨.nil, h⟩
  | _ :: _, _, .cons h hs => ⟨.cons h (fragments_split hs).1, (fragments_split hs).2⟩

theorem trouble_not_fragment {s : Srt} {v : Value} {p c} (h : Trouble s v p c) : ¬ Fragment s v := by
  induction h with
  | here h => exact wrong_not_fragment h
  | inside _ _ _ _ _ _ _ ih =>
    intro hf
    cases hf with
    | sexpr _ _ _ _ _ hs =>
      cases (fragments_split hs).2 with
      | cons h _ => exact ih h

/-- Two decompositions of a list whose middle elements are the first bad ones. -/
theorem first_unique {s : Srt} : ∀ {a a' : List Value} {v v' : Value} {b b' : List Value}, a ++ v :: b = a' ++ v' :: b' → Fragments s a → Fragments s a' →
    ¬ Fragment s v → ¬ Fragment s v' → a = a' ∧ v = v'
  | [], [], _, _, _, _, e, _, _, _, _ => by simp at e; exact ⟨rfl, e.1⟩
  | [], _ :: _, _, _, _, _, e, _, .cons h _, hv, _ => by simp at e; rw [e.1] at hv; exact absurd h hv
  | _ :: _, [], _, _, _, _, e, .cons h _, _, _, hv => by simp at e; rw [e.1] at h; exact absurd h hv
  | _ :: _, _ :: _, _, _, _, _, e, .cons _ hs, .cons _ hs', hv, hv' => by
    simp only [List.cons_append, List.cons.injEq] at e
    obtain ⟨h1, h2⟩ := first_unique e.2 hs hs' hv hv'
    exact ⟨by rw [e.1, h1], h2⟩

theorem wrong_inside {s : Srt} {h : Hdr} {o : Str} {m : Meaning} {args : List Value} {c : Cause} (hb : bareHdr h) (ho : h.op = .opcode o)
    (hm : meaning o = some m) (hs : m.sort = s) (ha : m.arity = args.length) (k : Wrong s (.sexpr h args) c) : False := by
  cases k <;> grind [bareHdr]

theorem trouble_unique {s : Srt} {v : Value} {p c} (h : Trouble s v p c) : ∀ {q d}, Trouble s v q d → p = q ∧ c = d := by
  induction h with
  | here h =>
    intro q d k
    cases k with
    | here k => exact ⟨rfl, wrong_unique h k⟩
    | inside hb ho hm hs ha _ _ => exact (wrong_inside hb ho hm hs ha h).elim
  | @inside h o m before v after p c hb ho hm hs ha hf ht ih =>
    intro q d k
    generalize hw : Value.sexpr h (before ++ v :: after) = w at k
    cases k with
    | here k => rw [← hw] at k; exact (wrong_inside hb ho hm hs ha k).elim
    | inside hb' ho' hm' hs' ha' hf' ht' =>
      simp only [Value.sexpr.injEq] at hw
      obtain ⟨rfl, e⟩ := hw
      rw [ho] at ho'; cases ho'
      obtain ⟨rfl, rfl⟩ := first_unique e hf hf' (trouble_not_fragment ht) (trouble_not_fragment ht')
      obtain ⟨rfl, rfl⟩ := ih ht'
      exact ⟨rfl, rfl⟩

theorem fragment_sort_unique {s s' : Srt} {h : Hdr} {args : List Value} (k : Fragment s (.sexpr h args)) (k' : Fragment s' (.sexpr h args)) : s = s' := by
  cases k with
  | sexpr _ ho hm hs _ _ =>
    subst hs
    exact (fragment_sort k' ho hm).symm

/-- Trouble in a value that is no S-expression with a supported opcode is the same at all sorts. -/
theorem trouble_any {s s' : Srt} {v : Value} {p c} (h : Trouble s v p c) (hv : ∀ h args o m, v = .sexpr h args → h.op = .opcode o → meaning o ≠ some m) :
    Trouble s' v p c := by
  cases h with
  | here h =>
    refine .here ?_
    cases h with
    | binding h1 => exact .binding h1
    | typeField h1 h2 => exact .typeField h1 h2
    | auxInt h1 h2 h3 => exact .auxInt h1 h2 h3
    | aux h1 h2 h3 h4 => exact .aux h1 h2 h3 h4
    | ellipsis h1 h2 h3 h4 h5 => exact .ellipsis h1 h2 h3 h4 h5
    | trailing h1 h2 h3 h4 h5 h6 => exact .trailing h1 h2 h3 h4 h5 h6
    | unexpanded hb h => exact .unexpanded hb h
    | opcode hb ho hm => exact .opcode hb ho hm
    | sort _ ho hm _ => exact absurd hm (hv _ _ _ _ rfl ho)
    | count _ ho hm _ _ => exact absurd hm (hv _ _ _ _ rfl ho)
    | expression => exact .expression
    | absent => exact .absent
  | inside _ ho hm _ _ _ _ => exact absurd hm (hv _ _ _ _ rfl ho)

theorem match_unique {r : Rule} {s s' : Srt} {p q c d} (h1 : SortOfMatch r s) (h2 : SortOfMatch r s') (k1 : Trouble s r.match p c)
    (k2 : Trouble s' r.match q d) : p = q ∧ c = d := by
  by_cases hx : ∃ h args o m, r.match = .sexpr h args ∧ h.op = .opcode o ∧ meaning o = some m
  · obtain ⟨h, args, o, m, e1, e2, e3⟩ := hx
    have a := h1 h args o m e1 e2 e3
    have b := h2 h args o m e1 e2 e3
    rw [a] at b; subst b
    exact trouble_unique k1 k2
  · refine trouble_unique k1 (trouble_any k2 ?_)
    intro h args o m e1 e2 e3
    exact hx ⟨h, args, o, m, e1, e2, e3⟩

/-- In a fragment match there is no trouble at the sort of the match. -/
theorem match_ok {r : Rule} {s s' : Srt} {h args p c} (hm : r.match = .sexpr h args) (hf : Fragment s r.match) (hs : SortOfMatch r s')
    (k : Trouble s' r.match p c) : False := by
  have : s' = s := by
    rw [hm] at hf
    cases hf with
    | sexpr _ ho hmo hso _ _ => rw [← hs _ _ _ _ hm ho hmo, hso]
  subst this
  exact trouble_not_fragment k hf

theorem not_var {s : Srt} {x : Str} {p c} (h : Trouble s (.var x) p c) : False := by
  cases h with
  | here h => cases h

theorem noScript_unique {r : Rule} {a b : Str} (h : NoScript r a) (k : NoScript r b) : a = b := by
  cases h with
  | unprintable h =>
    cases k with
    | unprintable k => rw [h] at k; cases k; rfl
    | bareVariable k _ | inMatch k _ _ | condition k _ _ _ | block k _ _ _ _ | inResult k _ _ _ _ _ => rw [h] at k; cases k
  | bareVariable h hm =>
    cases k with
    | unprintable k => rw [h] at k; cases k
    | bareVariable _ hm' => rw [hm] at hm'; cases hm'; rfl
    | inMatch _ _ k => rw [hm] at k; exact (not_var k).elim
    | condition _ k _ _ | block _ k _ _ _ | inResult _ k _ _ _ _ => rw [hm] at k; cases k
  | inMatch h hs ht =>
    cases k with
    | unprintable k => rw [h] at k; cases k
    | bareVariable _ hm' => rw [hm'] at ht; exact (not_var ht).elim
    | inMatch _ hs' ht' => obtain ⟨rfl, rfl⟩ := match_unique hs hs' ht ht'; rfl
    | condition _ hm hf _ | block _ hm hf _ _ | inResult _ hm hf _ _ _ => exact (match_ok hm hf hs ht).elim
  | condition h hm hf hc =>
    cases k with
    | unprintable k => rw [h] at k; cases k
    | bareVariable _ hm' => rw [hm] at hm'; cases hm'
    | inMatch _ hs ht => exact (match_ok hm hf hs ht).elim
    | condition _ _ _ _ => rfl
    | block _ _ _ hc' _ | inResult _ _ _ hc' _ _ => exact absurd hc' hc
  | block h hm hf hc hb =>
    cases k with
    | unprintable k => rw [h] at k; cases k
    | bareVariable _ hm' => rw [hm] at hm'; cases hm'
    | inMatch _ hs ht => exact (match_ok hm hf hs ht).elim
    | condition _ _ _ hc' => exact absurd hc hc'
    | block _ _ _ _ _ => rfl
    | inResult _ _ _ _ hb' _ => exact absurd hb' hb
  | inResult h hm hf hc hb ht =>
    cases k with
    | unprintable k => rw [h] at k; cases k
    | bareVariable _ hm' => rw [hm] at hm'; cases hm'
    | inMatch _ hs ht' => exact (match_ok hm hf hs ht').elim
    | condition _ _ _ hc' => exact absurd hc hc'
    | block _ _ _ _ hb' => exact absurd hb hb'
    | inResult _ hm' hf' _ _ ht' =>
      rw [hm] at hf hf'
      have := fragment_sort_unique hf hf'
      subst this
      obtain ⟨rfl, rfl⟩ := trouble_unique ht ht'
      rfl

theorem noScript_not_fragment {r : Rule} {a : Str} (h : NoScript r a) (s : Srt) : ¬ RuleFragment s r := by
  rintro ⟨hc, hb, ⟨hd, args, hm⟩, hf, hr⟩
  cases h with
  | unprintable h =>
    have := (printable_iff (.rule r)).1 (by simp [printable, rulePrintable, fragment_printable hf, fragment_printable hr, hc, goSupportedOpt])
    rw [show badNode (.rule r) = badRule r from rfl, h] at this
    cases this
  | bareVariable _ hm' => rw [hm] at hm'; cases hm'
  | inMatch _ hs ht => exact match_ok hm hf hs ht
  | condition _ _ _ hc' => exact hc' hc
  | block _ _ _ _ hb' => exact hb' hb
  | inResult _ hm' hf' _ _ ht =>
    have : s = _ := fragment_sort_unique (hm ▸ hf) (hm ▸ hf')
    subst this
    exact trouble_not_fragment ht hr

theorem generate_err_iff (r : Rule) (msg : Str) : (∃ e, generate r = .err e ∧ e.text = msg) ↔ NoScript r msg := by
  constructor
  · rintro ⟨e, he, rfl⟩
    have hn : ∀ s, ¬ RuleFragment s r := by
      intro s hs
      obtain ⟨t, ht, rfl⟩ := fragment_signed hs
      rw [generate_ok ht hs] at he; cases he
    obtain ⟨e', he', h⟩ := generate_err hn
    rw [he] at he'; cases he'
    exact h
  · intro h
    obtain ⟨e, he, k⟩ := generate_err (noScript_not_fragment h)
    exact ⟨e, he, noScript_unique k h⟩

theorem trouble_argAt {s : Srt} {v : Value} {p c} (h : Trouble s v p c) : ∃ w, argAt v p = some w ∧ Wrong s w c := by
  induction h with
  | here h => exact ⟨_, by rw [argAt], h⟩
  | @inside h o m before v after p c hb ho hm hs ha hf ht ih =>
    obtain ⟨w, h1, h2⟩ := ih
    refine ⟨w, ?_, h2⟩
    rw [argAt, if_pos ho]
    simpa using h1

/-! ## Reading messages -/

theorem opcode_name {o : Str} {m : Meaning} (h : meaning o = some m) : (∀ c ∈ o, c ≠ ':') ∧ ∃ c t, o = c :: t ∧ c.isUpper = true := by
  have key : ∀ n ∈ table.map (·.1), (∀ c ∈ n.toList, c ≠ ':') ∧ (n.toList.head?.any Char.isUpper) = true := by decide +kernel
  unfold meaning at h
  simp only [Option.map_eq_some_iff] at h
  obtain ⟨e, he, _⟩ := h
  have h1 := List.mem_of_find?_eq_some he
  have h2 := List.find?_some he
  simp only [beq_iff_eq] at h2
  obtain ⟨k1, k2⟩ := key e.1 (List.mem_map.2 ⟨e, h1, rfl⟩)
  rw [h2] at k1 k2
  refine ⟨k1, ?_⟩
  cases o with
  | nil => simp at k2
  | cons c t => exact ⟨c, t, rfl, by simpa using k2⟩

theorem split_unique {x : Char} {a b r r' : Str} (ha : ∀ c ∈ a, c ≠ x) (hb : ∀ c ∈ b, c ≠ x) (e : a ++ x :: r = b ++ x :: r') : a = b ∧ r = r' := by
  have h1 := Proof.cut_plain x [] a r ha
  have h2 := Proof.cut_plain x [] b r' hb
  rw [show a ++ [x] ++ r = a ++ x :: r by simp, e, show b ++ x :: r' = b ++ [x] ++ r' by simp, h2] at h1
  simp only [Option.some.injEq, Prod.mk.injEq] at h1
  exact ⟨h1.1.symm, h1.2.symm⟩

theorem decimal_inj {m n : Nat} (h : Spec.numeral m = Spec.numeral n) : m = n := by
  rw [decimal_eq, decimal_eq] at h
  rw [← Proof.decimal_natStr m, h, Proof.decimal_natStr]

theorem decimal_digits {n : Nat} {x : Char} (hx : x.isDigit = false) : ∀ c ∈ Spec.numeral n, c ≠ x := by
  rintro c hc rfl
  rw [decimal_eq] at hc
  rw [Proof.natStr_digit hc] at hx
  cases hx

theorem sortName_inj {s s' : Srt} (h : sortName s = sortName s') : s = s' := by
  cases s with
  | bool =>
    cases s' with
    | bool => rfl
    | bv n => exact absurd (congrArg List.head? h) (by simp [sortName])
  | bv m =>
    cases s' with
    | bool => exact absurd (congrArg List.head? h) (by simp [sortName])
    | bv n =>
      simp only [sortName, List.append_cancel_left_eq] at h
      rw [decimal_inj h]

/-- What follows the opcode in a message that begins with one. -/
inductive Tail where
  | step (i : Nat) (rest : Str)
  | sort (s : Srt)
  | count (m n : Nat)

def litStep : Str := " evaluate argument ".toList
def litSort : Str := " invalid return type ".toList
def litCount : Str := " expect ".toList
def litGot : Str := "arguments got ".toList

def Tail.say : Tail → Str
  | .step i rest => litStep ++ (Spec.numeral i ++ ':' :: ' ' :: rest)
  | .sort s => litSort ++ sortName s
  | .count m n => litCount ++ (Spec.numeral m ++ ' ' :: (litGot ++ Spec.numeral n))

theorem append_differ (n : Nat) {a b x y : Str} (ha : n ≤ a.length) (hb : n ≤ b.length) (h : a.take n ≠ b.take n) (e : a ++ x = b ++ y) : False := by
  apply h
  have := congrArg (List.take n) e
  rwa [List.take_append_of_le_length ha, List.take_append_of_le_length hb] at this

theorem step_sort {x y : Str} : litStep ++ x = litSort ++ y → False := append_differ 3 (by decide +kernel) (by decide +kernel) (by decide +kernel)
theorem step_count {x y : Str} : litStep ++ x = litCount ++ y → False := append_differ 3 (by decide +kernel) (by decide +kernel) (by decide +kernel)
theorem sort_count {x y : Str} : litSort ++ x = litCount ++ y → False := append_differ 3 (by decide +kernel) (by decide +kernel) (by decide +kernel)

theorem tail_inj {a b : Tail} (h : a.say = b.say) : a = b := by
  cases a with
  | step i rest =>
    cases b with
    | step j rest' =>
      simp only [Tail.say, List.append_cancel_left_eq] at h
      obtain ⟨h1, h2⟩ := split_unique (decimal_digits (by decide)) (decimal_digits (by decide)) h
      cases decimal_inj h1; cases h2; rfl
    | sort s => exact (step_sort h).elim
    | count m n => exact (step_count h).elim
  | sort s =>
    cases b with
    | step i r => exact (step_sort h.symm).elim
    | sort s' =>
      simp only [Tail.say, List.append_cancel_left_eq] at h
      rw [sortName_inj h]
    | count m n => exact (sort_count h).elim
  | count m n =>
    cases b with
    | step i r => exact (step_count h.symm).elim
    | sort s => exact (sort_count h.symm).elim
    | count m' n' =>
      simp only [Tail.say, List.append_cancel_left_eq] at h
      obtain ⟨h1, h2⟩ := split_unique (decimal_digits (by decide)) (decimal_digits (by decide)) h
      rw [List.append_cancel_left_eq] at h2
      cases decimal_inj h1; cases decimal_inj h2; rfl

/-- The two kinds of message: those that begin with an opcode, and the others. -/
inductive Form where
  | named (o : Str) (t : Tail)
  | plain (c : Cause)

def formOf : List (Str × Nat) → Cause → Form
  | (o, i) :: p, c => .named o (.step i (say p c))
  | [], .sort o s => .named o (.sort s)
  | [], .count o m n => .named o (.count m n)
  | [], c => .plain c

def Form.say : Form → Str
  | .named o t => o ++ ':' :: t.say
  | .plain c => c.say

theorem formOf_say (p : List (Str × Nat)) (c : Cause) : (formOf p c).say = say p c := by
  have h1 : ": evaluate argument ".toList = ':' :: litStep := by decide +kernel
  have h2 : ": invalid return type ".toList = ':' :: litSort := by decide +kernel
  have h3 : ": expect ".toList = ':' :: litCount := by decide +kernel
  have h4 : " arguments got ".toList = ' ' :: litGot := by decide +kernel
  have h5 : ": ".toList = [':', ' '] := rfl
  cases p with
  | cons oi p => simp only [formOf, Form.say, Tail.say, say, h1, h5, List.append_assoc, List.cons_append, List.nil_append]
  | nil =>
    cases c with
    | sort o s => rw [say_sort, h2]; simp only [formOf, Form.say, Tail.say, List.append_assoc, List.cons_append]
    | count o m n => rw [say_count, h3, h4]; simp only [formOf, Form.say, Tail.say, List.append_assoc, List.cons_append]
    | _ => rfl

def plainCause : Cause → Bool
  | .sort .. | .count .. => false
  | _ => true

/-- The fixed part of a plain message. -/
def plainLit : Cause → Str
  | .binding => "not supported: sexpr binding".toList
  | .typeField => "not supported: sexpr type field".toList
  | .auxInt => "not supported: sexpr auxint field".toList
  | .aux => "not supported: sexpr aux field".toList
  | .ellipsis => "not supported: sexpr ellipsis".toList
  | .trailing => "not supported: sexpr trailing".toList
  | .unexpanded => "unexpanded opcode".toList
  | .opcode _ => "not supported: opcode ".toList
  | .sort .. => []
  | .count .. => []
  | .expression => "assertion failure: unexpected type *ast.Expr".toList
  | .absent => "assertion failure: unexpected type <nil>".toList

def plainRest : Cause → Str
  | .opcode o => o
  | _ => []

theorem plain_say {c : Cause} (h : plainCause c = true) : c.say = plainLit c ++ plainRest c := by
  cases c <;> first | exact (List.append_nil _).symm | rfl | cases h

/-- The plain causes without their data. -/
def plainKind : Cause → Nat
  | .binding => 0 | .typeField => 1 | .auxInt => 2 | .aux => 3 | .ellipsis => 4 | .trailing => 5 | .unexpanded => 6
  | .opcode _ => 7 | .expression => 8 | .absent => 9 | .sort .. => 10 | .count .. => 10

def lits : List Str := [
  "not supported: sexpr binding".toList, "not supported: sexpr type field".toList, "not supported: sexpr auxint field".toList,
  "not supported: sexpr aux field".toList, "not supported: sexpr ellipsis".toList, "not supported: sexpr trailing".toList,
  "unexpanded opcode".toList, "not supported: opcode ".toList, "assertion failure: unexpected type *ast.Expr".toList,
  "assertion failure: unexpected type <nil>".toList]

theorem plainLit_lits {c : Cause} (h : plainCause c = true) : lits[plainKind c]? = some (plainLit c) := by
  cases c <;> first | rfl | cases h

/-- No two of the texts begin the same. -/
def differ (a b : Str) : Bool := (a.zip b).any fun p => p.1 != p.2

theorem differ_append : ∀ {a b x y : Str}, differ a b = true → a ++ x ≠ b ++ y
  | [], _, _, _, h => by simp [differ] at h
  | _ :: _, [], _, _, h => by simp [differ] at h
  | c :: a, d :: b, x, y, h => by
    simp only [differ, List.zip_cons_cons, List.any_cons, Bool.or_eq_true, bne_iff_ne, ne_eq] at h
    intro e
    simp only [List.cons_append, List.cons.injEq] at e
    rcases h with h | h
    · exact h e.1
    · exact differ_append h e.2

theorem lits_differ : ∀ i < 10, ∀ j < 10, i ≠ j → differ (lits[i]?.getD []) (lits[j]?.getD []) = true := by decide +kernel
theorem lits_lower : ∀ a ∈ lits, (a.head?.any fun c => !c.isUpper) = true := by decide +kernel

theorem plainKind_lt {c : Cause} (h : plainCause c = true) : plainKind c < 10 := by cases c <;> first | (simp [plainKind]; done) | cases h

theorem plain_head {c : Cause} (h : plainCause c = true) : ∃ d t, c.say = d :: t ∧ d.isUpper = false := by
  rw [plain_say h]
  have := lits_lower _ (List.mem_of_getElem? (plainLit_lits h))
  cases hl : plainLit c with
  | nil => rw [hl] at this; simp at this
  | cons d t => rw [hl] at this; exact ⟨d, _, rfl, by simpa using this⟩

theorem plain_inj {c d : Cause} (hc : plainCause c = true) (hd : plainCause d = true) (h : c.say = d.say) : c = d := by
  rw [plain_say hc, plain_say hd] at h
  have hk : plainKind c = plainKind d := by
    by_cases hk : plainKind c = plainKind d
    · exact hk
    · have := lits_differ _ (plainKind_lt hc) _ (plainKind_lt hd) hk
      rw [plainLit_lits hc, plainLit_lits hd] at this
      exact absurd h (differ_append this)
  have hl : plainLit c = plainLit d := by
    have := plainLit_lits hc
    rw [hk, plainLit_lits hd] at this
    exact (Option.some.inj this).symm
  rw [hl, List.append_cancel_left_eq] at h
  clear hl
  cases c <;> cases d <;> first | rfl | (cases hc; done) | (cases hd; done) | (simp [plainKind] at hk; done) | skip
  case opcode.opcode o o' => simp only [plainRest] at h; rw [h]

def okForm : Form → Prop
  | .named o _ => ∃ m, meaning o = some m
  | .plain c => plainCause c = true

theorem form_inj {a b : Form} (ha : okForm a) (hb : okForm b) (h : a.say = b.say) : a = b := by
  cases a with
  | named o t =>
    obtain ⟨m, hm⟩ := ha
    obtain ⟨k1, c, o', rfl, k2⟩ := opcode_name hm
    cases b with
    | named o2 t2 =>
      obtain ⟨m2, hm2⟩ := hb
      obtain ⟨e1, e2⟩ := split_unique k1 (opcode_name hm2).1 h
      rw [e1, tail_inj e2]
    | plain d =>
      obtain ⟨x, y, e, hx⟩ := plain_head hb
      simp only [Form.say, e, List.cons_append, List.cons.injEq] at h
      rw [h.1, hx] at k2; cases k2
  | plain c =>
    obtain ⟨x, y, e, hx⟩ := plain_head ha
    cases b with
    | named o t =>
      obtain ⟨m, hm⟩ := hb
      obtain ⟨_, c, o', rfl, k2⟩ := opcode_name hm
      simp only [Form.say, e, List.cons_append, List.cons.injEq] at h
      rw [← h.1, hx] at k2; cases k2
    | plain d => rw [plain_inj ha hb h]

theorem okForm_of_trouble {s : Srt} {v : Value} {p c} (h : Trouble s v p c) : okForm (formOf p c) := by
  cases h with
  | here h => cases h <;> first | exact rfl | exact ⟨_, by assumption⟩
  | inside _ _ hm _ _ _ _ => exact ⟨_, hm⟩

theorem trouble_tail {s : Srt} {v : Value} {o i p c} (h : Trouble s v ((o, i) :: p) c) : ∃ w, Trouble s w p c := by
  cases h with
  | inside _ _ _ _ _ _ h => exact ⟨_, h⟩

theorem formOf_nil {c d : Cause} (h : formOf [] c = formOf [] d) : c = d := by
  cases c <;> cases d <;> simp_all [formOf]

theorem say_inj : ∀ {p q : List (Str × Nat)} {s s' : Srt} {v w : Value} {c d}, Trouble s v p c → Trouble s' w q d → say p c = say q d → p = q ∧ c = d
  | p, q, s, s', v, w, c, d, h, k, e => by
    have e' : formOf p c = formOf q d := form_inj (okForm_of_trouble h) (okForm_of_trouble k) (by rw [formOf_say, formOf_say, e])
    match p, q with
    | [], [] => exact ⟨rfl, formOf_nil e'⟩
    | [], (o, i) :: q => cases c <;> simp [formOf] at e'
    | (o, i) :: p, [] => cases d <;> simp [formOf] at e'
    | (o, i) :: p, (o', i') :: q =>
      simp only [formOf, Form.named.injEq, Tail.step.injEq] at e'
      obtain ⟨rfl, rfl, e3⟩ := e'
      obtain ⟨_, h'⟩ := trouble_tail h
      obtain ⟨_, k'⟩ := trouble_tail k
      obtain ⟨rfl, rfl⟩ := say_inj h' k' e3
      exact ⟨rfl, rfl⟩

end Verif

import Verif.Spec.Compose
import Verif.Proof.Rewrite
/-!
# Lemmas about consequences of rules (C73)

All expressions, also those that mix sorts or have opcodes without meaning, get a value in one set: the infinite sequences of bits.  An operation on
`w`-bit integers works on each of the blocks of `w` bits the sequence is cut into.
-/
namespace Verif.Proof.Compose

open Verif Verif.Spec Verif.Spec.Smt Verif.Spec.Ssa

abbrev Bits := Nat → Bool

/-- The integer with the given bits. -/
def ofBits : (w : Nat) → (Nat → Bool) → BitVec w
  | 0, _ => 0#0
  | w + 1, f => BitVec.cons (f w) (ofBits w f)

theorem ofBits_bit (f : Nat → Bool) : ∀ (w i : Nat), i < w → (ofBits w f).getLsbD i = f i
  | 0, i, h => absurd h (Nat.not_lt_zero i)
  | w + 1, i, h => by
    rw [ofBits, BitVec.getLsbD_cons]
    by_cases e : i = w
    · rw [if_pos e, e]
    · rw [if_neg e]; exact ofBits_bit f w i (by omega)

/-- The block `j` of the sequence, as a value of the sort. -/
def pick : Srt → Bits → Nat → Val
  | .bool, k, j => .bool (k j)
  | .bv w, k, j => .bits w (ofBits w fun i => k (j * w + i))

/-- The sequence with the given blocks. -/
def join : Srt → (Nat → Val) → Bits
  | .bool, g => fun i => match g i with | .bool b => b | _ => false
  | .bv w, g => fun i => match g (i / w) with | .bits _ x => x.getLsbD (i % w) | _ => false

theorem pick_sort (so : Srt) (k : Bits) (j : Nat) : (pick so k j).sort = so := by cases so <;> rfl

theorem pick_join {so : Srt} (hp : so ≠ .bv 0) (g : Nat → Val) (j : Nat) (h : (g j).sort = so) : pick so (join so g) j = g j := by
  cases so with
  | bool =>
    simp only [pick, join]
    cases hg : g j with
    | bool b => rfl
    | bits w x => rw [hg] at h; simp [Val.sort] at h
  | bv w =>
    have hw : 0 < w := Nat.pos_of_ne_zero fun e => hp (by rw [e])
    cases hg : g j with
    | bool b => rw [hg] at h; simp [Val.sort] at h
    | bits w' x =>
      rw [hg] at h
      simp only [Val.sort, Srt.bv.injEq] at h
      subst h
      simp only [pick, join, Val.bits.injEq, heq_eq_eq, true_and]
      apply BitVec.eq_of_getLsbD_eq
      intro i hi
      have h1 : (j * w' + i) / w' = j := by rw [Nat.mul_comm, Nat.mul_add_div hw, Nat.div_eq_of_lt hi, Nat.add_zero]
      have h2 : (j * w' + i) % w' = i := by rw [Nat.mul_comm, Nat.mul_add_mod, Nat.mod_eq_of_lt hi]
      rw [ofBits_bit _ _ _ hi, h1, h2, hg]

theorem pick_ext {so : Srt} (hp : so ≠ .bv 0) {a b : Bits} (h : ∀ j, pick so a j = pick so b j) : a = b := by
  funext i
  cases so with
  | bool => simpa [pick] using h i
  | bv w =>
    have hw : 0 < w := Nat.pos_of_ne_zero fun e => hp (by rw [e])
    have := h (i / w)
    simp only [pick, Val.bits.injEq, heq_eq_eq, true_and] at this
    have := congrArg (fun x : BitVec w => x.getLsbD (i % w)) this
    simp only [ofBits_bit _ _ _ (Nat.mod_lt i hw)] at this
    rwa [Nat.mul_comm, Nat.div_add_mod] at this

theorem table_sorts : ∀ e ∈ table, e.2.sort ≠ .bv 0 := by decide

theorem meaning_sort {o : Str} {m : Meaning} (h : meaning o = some m) : m.sort ≠ .bv 0 := by
  unfold meaning at h
  simp only [Option.map_eq_some_iff] at h
  obtain ⟨e, h1, rfl⟩ := h
  exact table_sorts e (List.mem_of_find?_eq_some h1)

/-- The operation on sequences. -/
def applyBits (m : Meaning) (ks : List Bits) : Bits := join m.sort fun j => (m.apply (ks.map fun k => pick m.sort k j)).getD (.bool false)

mutual
def evalBits (env : Str → Bits) : Value → Bits
  | .var x => env x
  | .sexpr h args =>
    match h.op with
    | .opcode o => match meaning o with
      | some m => applyBits m (evalsBits env args)
      | none => fun _ => false
    | _ => fun _ => false
  | _ => fun _ => false
def evalsBits (env : Str → Bits) : List Value → List Bits
  | [] => []
  | v :: vs => evalBits env v :: evalsBits env vs
end

theorem evalsBits_length (env : Str → Bits) : ∀ vs : List Value, (evalsBits env vs).length = vs.length
  | [] => rfl
  | v :: vs => by simp [evalsBits, evalsBits_length env vs]

theorem apply_defined (m : Meaning) (as : List Val) (hl : as.length = m.arity) (hs : ∀ a ∈ as, a.sort = m.sort) : ∃ a, m.apply as = some a := by
  have one : as.length = 1 → ∃ a, as = [a] := fun h => List.length_eq_one_iff.1 h
  have two : as.length = 2 → ∃ a b, as = [a, b] := fun h => by
    match as, h with
    | [a, b], _ => exact ⟨a, b, rfl⟩
  cases m with
  | un w f =>
    obtain ⟨a, rfl⟩ := one hl
    have := hs a (by simp)
    cases a <;> simp [Val.sort, Meaning.sort] at this
    subst this
    simp [Meaning.apply]
  | bin w f =>
    obtain ⟨a, b, rfl⟩ := two hl
    have h1 := hs a (by simp)
    have h2 := hs b (by simp)
    cases a <;> cases b <;> simp [Val.sort, Meaning.sort] at h1 h2
    subst h1 h2
    simp [Meaning.apply]
  | unB f =>
    obtain ⟨a, rfl⟩ := one hl
    have := hs a (by simp)
    cases a <;> simp [Val.sort, Meaning.sort] at this
    simp [Meaning.apply]
  | binB f =>
    obtain ⟨a, b, rfl⟩ := two hl
    have h1 := hs a (by simp)
    have h2 := hs b (by simp)
    cases a <;> cases b <;> simp [Val.sort, Meaning.sort] at h1 h2
    simp [Meaning.apply]

mutual
/-- On expressions of one sort this is the meaning, block by block. -/
theorem eval_pick {so : Srt} (env : Str → Bits) (j : Nat) : ∀ {v : Value}, Fragment so v →
    eval (fun x => pick so (env x) j) v = some (pick so (evalBits env v) j)
  | _, .var x => rfl
  | _, .sexpr (h := h) (o := o) (args := args) (m := m) hb ho hm hs ha has => by
    have ih := evals_pick env j has
    subst hs
    simp only [eval, evalBits, ho, hm, Option.bind_some, ih]
    obtain ⟨a, h1⟩ := apply_defined m ((evalsBits env args).map fun k => pick m.sort k j) (by simp [evalsBits_length, ha])
      (fun a h => by obtain ⟨k, _, rfl⟩ := List.mem_map.1 h; exact pick_sort _ _ _)
    rw [h1, applyBits, pick_join (meaning_sort hm), h1, Option.getD_some]
    rw [h1, Option.getD_some]
    exact (apply_sorts h1).1
theorem evals_pick {so : Srt} (env : Str → Bits) (j : Nat) : ∀ {vs : List Value}, Fragments so vs →
    evals (fun x => pick so (env x) j) vs = some ((evalsBits env vs).map fun k => pick so k j)
  | _, .nil => rfl
  | _, .cons h hs => by simp [evals, evalsBits, eval_pick env j h, evals_pick env j hs]
end

mutual
theorem evalBits_subst (env : Str → Bits) (θ : Str → Value) : ∀ v : Value, evalBits env (subst θ v) = evalBits (fun x => evalBits env (θ x)) v
  | .var x => rfl
  | .sexpr h args => by simp only [subst, evalBits, evalsBits_subst env θ args]
  | .nil => rfl
  | .expr e => rfl
theorem evalsBits_subst (env : Str → Bits) (θ : Str → Value) : ∀ vs : List Value, evalsBits env (substs θ vs) = evalsBits (fun x => evalBits env (θ x)) vs
  | [] => rfl
  | v :: vs => by simp only [substs, evalsBits, evalBits_subst env θ v, evalsBits_subst env θ vs]
end

theorem evalsBits_swap (env : Str → Bits) {a b : Value} (h : evalBits env a = evalBits env b) (post : List Value) :
    ∀ pre : List Value, evalsBits env (pre ++ a :: post) = evalsBits env (pre ++ b :: post)
  | [] => by simp [evalsBits, h]
  | _ :: pre => by simp [evalsBits, evalsBits_swap env h post pre]

theorem sexpr_sort {so : Srt} {h : Hdr} {args : List Value} (hf : Fragment so (.sexpr h args)) : so ≠ .bv 0 := by
  cases hf with
  | sexpr _ _ hm hs _ _ => rw [← hs]; exact meaning_sort hm

theorem rule_bits {so : Srt} {r : Rule} (hF : RuleFragment so r) (hv : Valid r) (env : Str → Bits) : evalBits env r.match = evalBits env r.result := by
  obtain ⟨_, _, ⟨hd, args, hmm⟩, f1, f2⟩ := hF
  have hp : so ≠ .bv 0 := by rw [hmm] at f1; exact sexpr_sort f1
  refine pick_ext hp fun j => ?_
  exact hv _ _ _ (eval_pick env j f1) (eval_pick env j f2) (by rw [pick_sort, pick_sort])

theorem step_bits {rules : List Rule} (hr : ∀ r ∈ rules, ∃ so, RuleFragment so r ∧ Valid r) (env : Str → Bits) {a b : Value} (h : Step rules a b) :
    evalBits env a = evalBits env b := by
  induction h with
  | here θ hm =>
    obtain ⟨so, h1, h2⟩ := hr _ hm
    rw [evalBits_subst, evalBits_subst]
    exact rule_bits h1 h2 _
  | @inside h pre post a b _ ih =>
    simp only [evalBits]
    rw [evalsBits_swap env ih post pre]

theorem connected_bits {rules : List Rule} (hr : ∀ r ∈ rules, ∃ so, RuleFragment so r ∧ Valid r) (env : Str → Bits) {a b : Value} (h : Connected rules a b) :
    evalBits env a = evalBits env b := by
  induction h with
  | refl => rfl
  | forward h1 _ ih => exact (step_bits hr env h1).trans ih
  | backward h1 _ ih => exact (step_bits hr env h1).symm.trans ih

mutual
/-- The value of an expression that has one is in the first block. -/
theorem eval_first {so : Srt} (hp : so ≠ .bv 0) (env : Str → Val) : ∀ (v : Value) {a : Val}, eval env v = some a → a.sort = so →
    pick so (evalBits (fun z => join so fun _ => env z) v) 0 = a
  | .var x, a, h, hs => by
    simp only [eval, Option.some.injEq] at h
    subst h
    exact pick_join hp _ 0 hs
  | .sexpr hd args, a, h, hs => by
    simp only [eval] at h
    cases ho : hd.op with
    | opcode o =>
      rw [ho] at h
      simp only at h
      cases hm : meaning o with
      | none => rw [hm] at h; simp at h
      | some m =>
        rw [hm, Option.bind_some] at h
        cases he : evals env args with
        | none => rw [he] at h; simp at h
        | some as =>
          rw [he, Option.bind_some] at h
          obtain ⟨h1, h2⟩ := apply_sorts h
          rw [hs] at h1
          subst h1
          have ih := evals_first hp env args he h2
          simp only [evalBits, ho, hm]
          rw [applyBits, pick_join hp, ih, h, Option.getD_some]
          rw [ih, h, Option.getD_some]; exact hs
    | parts => rw [ho] at h; simp at h
    | nil => rw [ho] at h; simp at h
  | .nil, _, h, _ => by simp [eval] at h
  | .expr e, _, h, _ => by simp [eval] at h
theorem evals_first {so : Srt} (hp : so ≠ .bv 0) (env : Str → Val) : ∀ (vs : List Value) {as : List Val}, evals env vs = some as → (∀ a ∈ as, a.sort = so) →
    (evalsBits (fun z => join so fun _ => env z) vs).map (fun k => pick so k 0) = as
  | [], as, h, _ => by
    simp only [evals, Option.some.injEq] at h
    subst h; rfl
  | v :: vs, as, h, hs => by
    simp only [evals] at h
    cases h1 : eval env v with
    | none => rw [h1] at h; simp at h
    | some a =>
      cases h2 : evals env vs with
      | none => rw [h1, h2] at h; simp at h
      | some as' =>
        rw [h1, h2] at h
        simp at h
        subst h
        simp only [evalsBits, List.map_cons, List.cons.injEq]
        exact ⟨eval_first hp env v h1 (hs a (by simp)), evals_first hp env vs h2 fun b hb => hs b (by simp [hb])⟩
end

theorem no_bits {a b : Val} (ha : a.sort = .bv 0) (hb : b.sort = .bv 0) : a = b := by
  cases a <;> cases b <;> simp [Val.sort] at ha hb
  subst ha hb
  simp [BitVec.of_length_zero]

theorem connected_values {rules : List Rule} (hr : ∀ r ∈ rules, ∃ so, RuleFragment so r ∧ Valid r) {e e' : Value} (hc : Connected rules e e')
    (env : Str → Val) {a b : Val} (ha : eval env e = some a) (hb : eval env e' = some b) (hs : a.sort = b.sort) : a = b := by
  by_cases hp : a.sort = .bv 0
  · exact no_bits hp (hs ▸ hp)
  · rw [← eval_first hp env e ha rfl, ← eval_first hp env e' hb hs.symm, connected_bits hr _ hc]

end Verif.Proof.Compose

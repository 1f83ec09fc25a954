import Verif.Proof.NilPrint
import Verif.Proof.Expand
/-! # Lemmas about expanding ASTs with nil pointers (C74) -/
namespace Verif.Proof.Nil

open Verif Verif.Spec

/-- `m` does what `n` does (with results related by `g`), except that it may do anything if `n` panics and `C` does not hold. -/
structure Upto {α β : Type} (C : Prop) (g : α → β) (n : Res α) (m : Res β) : Prop where
  ok : ∀ a, n = .ok a → m = .ok (g a)
  err : ∀ e, n = .err e → m = .err e
  panic : C → n = .panic → m = .panic

theorem Upto.ok' {α β : Type} {C : Prop} {g : α → β} {a : α} {m : Res β} (h : m = .ok (g a)) : Upto C g (.ok a) m :=
  ⟨fun b e => by cases e; exact h, fun e h => (nomatch h), fun _ h => (nomatch h)⟩

theorem Upto.err' {α β : Type} {C : Prop} {g : α → β} {e : Err} : Upto C g (.err e) (.err e) :=
  ⟨fun b e => (nomatch e), fun e h => by cases h; rfl, fun _ h => (nomatch h)⟩

theorem Upto.bind {α β γ δ : Type} {C : Prop} {g : α → β} {k : γ → δ} {n : Res α} {m : Res β} {f : α → Res γ} {f' : β → Res δ}
    (h : Upto C g n m) (hf : ∀ a, n = .ok a → Upto C k (f a) (f' (g a))) : Upto C k (n >>= f) (m >>= f') := by
  cases n with
  | ok a => rw [h.ok a rfl]; exact hf a rfl
  | err e => rw [h.err e rfl]; exact .err'
  | panic =>
    exact ⟨fun b e => (nomatch e), fun e h => (nomatch h), fun hC _ => by rw [h.panic hC rfl]; rfl⟩

theorem Upto.same {α : Type} {C : Prop} (n : Res α) : Upto C id n n :=
  ⟨fun _ h => h, fun _ h => h, fun _ h => h⟩

theorem Upto.getIdx {α β : Type} {C : Prop} {g : α → β} (l : List α) (i : Nat) : Upto C g (getIdx l i) (getIdx (l.map g) i) := by
  simp only [Verif.getIdx, List.getElem?_map]
  cases l[i]? with
  | none => exact ⟨by intro a h; simp at h, by intro e h; simp at h, by intro _ _; rfl⟩
  | some a => exact .ok' rfl

theorem Upto.forRes {α β γ δ : Type} {C : Prop} {g : γ → δ} {k : α → β} {f : α → Res γ} {f' : β → Res δ} (l : List α)
    (h : ∀ a ∈ l, Upto C g (f a) (f' (k a))) : Upto C (List.map g) (forRes f l) (forRes f' (l.map k)) := by
  induction l with
  | nil => exact .ok' rfl
  | cons a l ih =>
    simp only [List.map_cons, Verif.forRes]
    refine (h a List.mem_cons_self).bind fun b _ => (ih fun a ha => h a (List.mem_cons_of_mem _ ha)).bind fun bs _ => .ok' rfl

def panics (st : Stand) : Prop := expandvalue st.sexpr = .panic ∧ expandrule st.rule = .panic ∧ expandAlternates st.file = .panic

theorem fills_map (st : Stand) (l : List NValue) : fills st l = l.map (fill st) := by
  induction l with
  | nil => rfl
  | cons v l ih => simp [fills, ih]

theorem upto_build (st : Stand) {C : Prop} (h : Hdr) (ops : List Str) (xs : List (List NValue)) (i : Nat) :
    Upto C (fill st) (nbuildSExpr h ops xs i) (buildSExpr h ops (xs.map (List.map (fill st))) i) := by
  unfold nbuildSExpr buildSExpr
  refine (Upto.same _).bind fun o _ => Upto.bind (g := List.map (fill st)) (Upto.forRes xs fun a _ => ?_) fun args _ => .ok' ?_
  · rw [List.length_map]; exact Upto.getIdx a _
  · simp only [fill, fills_map, id]

mutual
theorem upto_value (st : Stand) (v : NValue) : Upto (panics st) (List.map (fill st)) (nexpandvalue v) (expandvalue (fill st v)) := by
  cases v with
  | nil => exact .err'
  | sexprNil => exact ⟨by intro a h; simp [nexpandvalue] at h, by intro e h; simp [nexpandvalue] at h, fun h _ => h.1⟩
  | exprNil => exact .ok' rfl
  | expr e => exact .ok' rfl
  | var x => exact .ok' rfl
  | sexpr h args =>
    simp only [nexpandvalue, fill, expandvalue]
    refine (Upto.same _).bind fun ops _ => (upto_args st ops.length args).bind fun r _ => ?_
    obtain ⟨n, xs⟩ := r
    simp only [id]
    split
    · exact .ok' rfl
    · have := Upto.forRes (C := panics st) (g := fill st) (k := id) (f := nbuildSExpr h ops xs)
        (f' := buildSExpr h ops (xs.map (List.map (fill st)))) (List.range n) fun i _ => upto_build st h ops xs i
      rwa [List.map_id] at this
theorem upto_args (st : Stand) (n : Nat) (vs : List NValue) :
    Upto (panics st) (fun r => (r.1, r.2.map (List.map (fill st)))) (nexpandargs n vs) (expandargs n (fills st vs)) := by
  cases vs with
  | nil => exact .ok' rfl
  | cons v vs =>
    simp only [nexpandargs, fills, expandargs]
    refine (upto_value st v).bind fun l _ => ?_
    rw [List.length_map]
    exact (Upto.same _).bind fun n' _ => (upto_args st n' vs).bind fun r _ => .ok' rfl
end

theorem upto_rule (st : Stand) (r : Option NRule) :
    Upto (panics st) (List.map (fillRule st)) (nexpandrule r) (expandrule (fillRulePtr st r)) := by
  cases r with
  | none => exact ⟨by intro a h; simp [nexpandrule] at h, by intro e h; simp [nexpandrule] at h, fun h _ => h.2.1⟩
  | some r =>
    simp only [nexpandrule, fillRulePtr, expandrule, fillRule]
    refine (upto_value st r.match).bind fun ms _ => (upto_value st r.result).bind fun rs _ => ?_
    rw [List.length_map, List.length_map]
    refine (Upto.same _).bind fun n _ => ?_
    simp only [id]
    split
    · exact .ok' rfl
    · have := Upto.forRes (C := panics st) (g := fillRule st) (k := id) (f := nbuildRule r ms rs)
        (f' := buildRule (fillRule st r) (ms.map (fill st)) (rs.map (fill st))) (List.range n) (fun i _ => by
          simp only [nbuildRule, buildRule, id, List.length_map]
          exact (Upto.getIdx ms _).bind fun m _ => (Upto.getIdx rs _).bind fun v _ => .ok' rfl)
      rwa [List.map_id] at this

theorem upto_file (st : Stand) (f : Option NFile) :
    Upto (panics st) (fun rs => (⟨rs.map (fillRule st)⟩ : File)) (nexpandAlternates f) (expandAlternates (fillFilePtr st f)) := by
  cases f with
  | none => exact ⟨by intro a h; simp [nexpandAlternates] at h, by intro e h; simp [nexpandAlternates] at h, fun h _ => h.2.2⟩
  | some f =>
    have e : expandAlternates (fillFilePtr st (some f)) = (forRes expandrule (f.rules.map (fillRulePtr st)) >>= fun xss => .ok ⟨xss.flatten⟩) := by
      simp only [expandAlternates, fillFilePtr, fillFile, expandrules]
      cases forRes expandrule (f.rules.map (fillRulePtr st)) <;> rfl
    rw [e, nexpandAlternates]
    exact (Upto.forRes f.rules fun r _ => upto_rule st r).bind fun xss _ => .ok' (by rw [List.map_flatten])

/-! ### Success -/

theorem forRes_ok_all {α β : Type} {f : α → Res β} {l : List α} {ys : List β} (h : forRes f l = .ok ys) : ∀ a ∈ l, ∃ b, f a = .ok b := by
  induction l generalizing ys with
  | nil => intro a ha; cases ha
  | cons a l ih =>
    simp only [forRes] at h
    obtain ⟨b, hb, h⟩ := Res.bind_eq_ok.1 h
    obtain ⟨bs, hbs, _⟩ := Res.bind_eq_ok.1 h
    intro c hc
    rcases List.mem_cons.1 hc with rfl | hc
    · exact ⟨b, hb⟩
    · exact ih hbs c hc

theorem sexprNil_op (o : Op) : .sexprNil ∉ nflatOp o ∧ .ruleNil ∉ nflatOp o := by
  cases o with
  | parts ps =>
    simp only [nflatOp, List.mem_cons, List.mem_map, reduceCtorEq, false_or, not_exists, not_and]
    constructor <;> intro p _ <;> cases p <;> simp [OpPart.toNNode]
  | _ => simp [nflatOp, Op.toNNode]

mutual
theorem ok_value (v : NValue) (l : List NValue) (h : nexpandvalue v = .ok l) : .sexprNil ∉ nflatValue v ∧ .ruleNil ∉ nflatValue v := by
  cases v with
  | sexprNil => simp [nexpandvalue] at h
  | sexpr hd args =>
    simp only [nexpandvalue] at h
    obtain ⟨ops, _, h⟩ := Res.bind_eq_ok.1 h
    obtain ⟨r, hr, _⟩ := Res.bind_eq_ok.1 h
    have h1 := ok_args args _ _ hr
    have h2 := sexprNil_op hd.op
    simp only [nflatValue, List.mem_cons, reduceCtorEq, List.mem_append, false_or]
    exact ⟨fun h => h.elim h2.1 h1.1, fun h => h.elim h2.2 h1.2⟩
  | _ => simp [nflatValue]
theorem ok_args (vs : List NValue) (n : Nat) (r : Nat × List (List NValue)) (h : nexpandargs n vs = .ok r) :
    .sexprNil ∉ nflatValues vs ∧ .ruleNil ∉ nflatValues vs := by
  cases vs with
  | nil => simp [nflatValues]
  | cons v vs =>
    simp only [nexpandargs] at h
    obtain ⟨l, hl, h⟩ := Res.bind_eq_ok.1 h
    obtain ⟨n', _, h⟩ := Res.bind_eq_ok.1 h
    obtain ⟨r', hr, _⟩ := Res.bind_eq_ok.1 h
    have h1 := ok_value v l hl
    have h2 := ok_args vs n' r' hr
    simp only [nflatValues, List.mem_append]
    exact ⟨fun h => h.elim h1.1 h2.1, fun h => h.elim h1.2 h2.2⟩
end

theorem ok_file (f : NFile) (rs : List NRule) (h : nexpandAlternates (some f) = .ok rs) : .sexprNil ∉ nflat (.file f) ∧ .ruleNil ∉ nflat (.file f) := by
  simp only [nexpandAlternates] at h
  obtain ⟨xss, hx, _⟩ := Res.bind_eq_ok.1 h
  have hall := forRes_ok_all hx
  have key : ∀ r ∈ f.rules, .sexprNil ∉ nflatRule r ∧ .ruleNil ∉ nflatRule r := by
    intro r hr
    obtain ⟨b, hb⟩ := hall r hr
    cases r with
    | none => simp [nexpandrule] at hb
    | some r =>
      simp only [nexpandrule] at hb
      obtain ⟨ms, hm, hb⟩ := Res.bind_eq_ok.1 hb
      obtain ⟨rs, hr, _⟩ := Res.bind_eq_ok.1 hb
      have h1 := ok_value _ _ hm
      have h2 := ok_value _ _ hr
      simp only [nflatRule, List.mem_cons, reduceCtorEq, List.mem_append, false_or]
      exact ⟨fun h => h.elim h1.1 h2.1, fun h => h.elim h1.2 h2.2⟩
  simp only [nflat, List.mem_cons, reduceCtorEq, List.mem_flatMap, false_or, not_exists, not_and]
  exact ⟨fun r hr => (key r hr).1, fun r hr => (key r hr).2⟩

/-- An S-expression on which expansion panics. -/
def mixed : Value := .sexpr { op := .parts [.alt [['A']], .alt [['8'], ['9']]] } []

def mixedStand : Stand where
  file := ⟨[{ «match» := mixed, result := .nil }]⟩
  rule := { «match» := mixed, result := .nil }
  sexpr := mixed
  expr := .nil

theorem mixed_panics : panics mixedStand := ⟨rfl, rfl, rfl⟩

end Verif.Proof.Nil

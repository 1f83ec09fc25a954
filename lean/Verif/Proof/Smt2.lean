import Verif.Model.Smt2
import Verif.Spec.GenError
import Verif.Proof.Decimal
import Verif.Proof.Printer
/-!
# Proofs about the SMT generator
-/
namespace Verif

open Verif.Spec Verif.Spec.Smt Verif.Spec.Ssa

/-! ## The table of operations -/

/-- Shape of the term an opcode is translated to. -/
inductive Shape where
  | app (f : Str)
  | neq
  deriving DecidableEq

def Shape.term : Shape → List SExp → SExp
  | .app f, args => .list (.atom f :: args)
  | .neq, args => .list [.atom "not".toList, .list (.atom "=".toList :: args)]

def srt : GoType → Srt
  | .bool => .bool
  | .int8 | .uint8 => .bv 8
  | .int16 | .uint16 => .bv 16
  | .int32 | .uint32 => .bv 32
  | .int64 | .uint64 => .bv 64

def signed : GoType → Bool
  | .bool | .int8 | .int16 | .int32 | .int64 => true
  | _ => false

theorem srt_inj {a b : GoType} (ha : signed a = true) (hb : signed b = true) (h : srt a = srt b) : a = b := by
  cases a <;> cases b <;> simp_all [signed, srt]

structure Row where
  o : String
  t : GoType
  n : Nat
  sh : Shape
  m : Meaning

def rows : List Row := [
  ⟨"Add8", .int8, 2, .app "bvadd".toList, .bin 8 fun x y => x + y⟩, ⟨"Add16", .int16, 2, .app "bvadd".toList, .bin 16 fun x y => x + y⟩,
  ⟨"Add32", .int32, 2, .app "bvadd".toList, .bin 32 fun x y => x + y⟩, ⟨"Add64", .int64, 2, .app "bvadd".toList, .bin 64 fun x y => x + y⟩,
  ⟨"Sub8", .int8, 2, .app "bvsub".toList, .bin 8 fun x y => x - y⟩, ⟨"Sub16", .int16, 2, .app "bvsub".toList, .bin 16 fun x y => x - y⟩,
  ⟨"Sub32", .int32, 2, .app "bvsub".toList, .bin 32 fun x y => x - y⟩, ⟨"Sub64", .int64, 2, .app "bvsub".toList, .bin 64 fun x y => x - y⟩,
  ⟨"And8", .int8, 2, .app "bvand".toList, .bin 8 fun x y => x &&& y⟩, ⟨"And16", .int16, 2, .app "bvand".toList, .bin 16 fun x y => x &&& y⟩,
  ⟨"And32", .int32, 2, .app "bvand".toList, .bin 32 fun x y => x &&& y⟩, ⟨"And64", .int64, 2, .app "bvand".toList, .bin 64 fun x y => x &&& y⟩,
  ⟨"Or8", .int8, 2, .app "bvor".toList, .bin 8 fun x y => x ||| y⟩, ⟨"Or16", .int16, 2, .app "bvor".toList, .bin 16 fun x y => x ||| y⟩,
  ⟨"Or32", .int32, 2, .app "bvor".toList, .bin 32 fun x y => x ||| y⟩, ⟨"Or64", .int64, 2, .app "bvor".toList, .bin 64 fun x y => x ||| y⟩,
  ⟨"Xor8", .int8, 2, .app "bvxor".toList, .bin 8 fun x y => x ^^^ y⟩, ⟨"Xor16", .int16, 2, .app "bvxor".toList, .bin 16 fun x y => x ^^^ y⟩,
  ⟨"Xor32", .int32, 2, .app "bvxor".toList, .bin 32 fun x y => x ^^^ y⟩, ⟨"Xor64", .int64, 2, .app "bvxor".toList, .bin 64 fun x y => x ^^^ y⟩,
  ⟨"Neg8", .int8, 1, .app "bvneg".toList, .un 8 fun x => -x⟩, ⟨"Neg16", .int16, 1, .app "bvneg".toList, .un 16 fun x => -x⟩,
  ⟨"Neg32", .int32, 1, .app "bvneg".toList, .un 32 fun x => -x⟩, ⟨"Neg64", .int64, 1, .app "bvneg".toList, .un 64 fun x => -x⟩,
  ⟨"Com8", .int8, 1, .app "bvnot".toList, .un 8 fun x => ~~~x⟩, ⟨"Com16", .int16, 1, .app "bvnot".toList, .un 16 fun x => ~~~x⟩,
  ⟨"Com32", .int32, 1, .app "bvnot".toList, .un 32 fun x => ~~~x⟩, ⟨"Com64", .int64, 1, .app "bvnot".toList, .un 64 fun x => ~~~x⟩,
  ⟨"AndB", .bool, 2, .app "and".toList, .binB fun a b => a && b⟩, ⟨"OrB", .bool, 2, .app "or".toList, .binB fun a b => a || b⟩,
  ⟨"EqB", .bool, 2, .app "=".toList, .binB fun a b => a == b⟩, ⟨"NeqB", .bool, 2, .neq, .binB fun a b => a != b⟩,
  ⟨"Not", .bool, 1, .app "not".toList, .unB fun a => !a⟩]

theorem table_rows : table = rows.map fun r => (r.o, r.m) := rfl

def sigs : GoType → Nat → List Signature
  | .int8, n => [⟨.int8, List.replicate n .int8, true⟩, ⟨.uint8, List.replicate n .uint8, false⟩]
  | .int16, n => [⟨.int16, List.replicate n .int16, true⟩, ⟨.uint16, List.replicate n .uint16, false⟩]
  | .int32, n => [⟨.int32, List.replicate n .int32, true⟩, ⟨.uint32, List.replicate n .uint32, false⟩]
  | .int64, n => [⟨.int64, List.replicate n .int64, true⟩, ⟨.uint64, List.replicate n .uint64, false⟩]
  | t, n => [⟨t, List.replicate n t, false⟩]

def Shape.fmt : Shape → Nat → Str
  | .app f, n => '(' :: f ++ (List.replicate n " %s".toList).flatten ++ [')']
  | .neq, n => "(not (=".toList ++ (List.replicate n " %s".toList).flatten ++ "))".toList

def Row.op (r : Row) : Operation := { signatures := sigs r.t r.n, format := r.sh.fmt r.n }

theorem entries_rows : operationEntries = rows.map fun r => (r.o.toList, r.op) := by decide

theorem find_reverse_key {α : Type} (key : α → Str) (k : Str) : ∀ l : List α, (l.map key).Nodup →
    l.reverse.find? (fun e => key e == k) = l.find? (fun e => key e == k)
  | [], _ => rfl
  | a :: l, h => by
    simp only [List.map_cons, List.nodup_cons] at h
    rw [List.reverse_cons, List.find?_append, find_reverse_key key k l h.2, List.find?_cons]
    by_cases hk : key a = k
    · have : l.find? (fun e => key e == k) = none := by
        rw [List.find?_eq_none]
        intro x hx hxk
        apply h.1
        rw [hk, ← eq_of_beq hxk]
        exact List.mem_map_of_mem hx
      simp [this, hk]
    · have : (key a == k) = false := by simpa using hk
      simp [this]

def rowOf (o : Str) : Option Row := rows.find? fun r => r.o.toList == o

theorem operations_rows (o : Str) : operations o = (rowOf o).map Row.op := by
  unfold operations rowOf
  rw [entries_rows]
  have := find_reverse_key (fun e : Str × Operation => e.1) o (rows.map fun r => (r.o.toList, r.op)) (by decide)
  rw [this, List.find?_map, Option.map_map]
  rfl

theorem meaning_rows (o : Str) : meaning o = (rowOf o).map Row.m := by
  unfold meaning rowOf
  rw [table_rows, List.find?_map, Option.map_map]
  rfl

/-- What the shape of a term means. -/
def Shape.apply : Shape → List Val → Option Val
  | .app f, vs => applySym f vs
  | .neq, vs => (applySym "=".toList vs).bind fun v => applySym "not".toList [v]

theorem sort_bool {v : Val} (h : v.sort = .bool) : ∃ b, v = .bool b := by
  cases v with
  | bool b => exact ⟨b, rfl⟩
  | bits w x => simp [Val.sort] at h

theorem sort_bv {v : Val} {w : Nat} (h : v.sort = .bv w) : ∃ x : BitVec w, v = .bits w x := by
  cases v with
  | bool b => simp [Val.sort] at h
  | bits w' x => simp only [Val.sort, Srt.bv.injEq] at h; subst h; exact ⟨x, rfl⟩

structure RowGood (r : Row) : Prop where
  signed : signed r.t = true
  sort : r.m.sort = srt r.t
  arity : r.m.arity = r.n
  pos : 0 < r.n

theorem rows_good1 : ∀ r ∈ rows, signed r.t = true ∧ r.m.sort = srt r.t ∧ r.m.arity = r.n ∧ 0 < r.n := by decide

theorem decide_bool_eq (a b : Bool) : decide (Val.bool a = Val.bool b) = (a == b) := by cases a <;> cases b <;> rfl

theorem rows_apply : ∀ r ∈ rows, ∀ vs : List Val, vs.length = r.n → (∀ v ∈ vs, v.sort = srt r.t) →
    r.sh.apply vs = r.m.apply vs ∧ ∃ v, r.m.apply vs = some v ∧ v.sort = srt r.t := by
  intro r hr
  simp only [rows, List.mem_cons, List.not_mem_nil, or_false] at hr
  rcases hr with h | h | h | h | h | h | h | h | h | h | h | h | h | h | h | h | h | h | h | h | h | h | h | h | h | h |
    h | h | h | h | h | h | h <;> subst h <;> intro vs hl hs
  all_goals first
    | (match vs, hl with
        | [a, b], _ =>
          obtain ⟨x, rfl⟩ := sort_bv (hs a (by simp))
          obtain ⟨y, rfl⟩ := sort_bv (hs b (by simp))
          exact ⟨rfl, _, rfl, rfl⟩)
    | (match vs, hl with
        | [a], _ =>
          obtain ⟨x, rfl⟩ := sort_bv (hs a (by simp))
          exact ⟨rfl, _, rfl, rfl⟩)
    | (match vs, hl with
        | [a], _ =>
          obtain ⟨x, rfl⟩ := sort_bool (hs a (by simp))
          exact ⟨rfl, _, rfl, rfl⟩)
    | (match vs, hl with
        | [a, b], _ =>
          obtain ⟨x, rfl⟩ := sort_bool (hs a (by simp))
          obtain ⟨y, rfl⟩ := sort_bool (hs b (by simp))
          exact ⟨by cases x <;> cases y <;> decide, _, rfl, rfl⟩)

theorem rowOf_mem {o : Str} {r : Row} (h : rowOf o = some r) : r ∈ rows ∧ r.o.toList = o := by
  unfold rowOf at h
  refine ⟨List.mem_of_find?_eq_some h, ?_⟩
  have := List.find?_some h
  simpa using this

/-- Conversely, a meaning is only defined on arguments of its sort. -/
theorem apply_sorts {m : Meaning} {vs : List Val} {v : Val} (h : m.apply vs = some v) :
    v.sort = m.sort ∧ ∀ x ∈ vs, x.sort = m.sort := by
  unfold Meaning.apply at h
  split at h
  · split at h
    · next hw => subst hw; simp only [Option.some.injEq] at h; subst h; simp [Val.sort, Meaning.sort]
    · simp at h
  · split at h
    · next hw => 
      subst hw
      split at h
      · next hw => subst hw; simp only [Option.some.injEq] at h; subst h; simp [Val.sort, Meaning.sort]
      · simp at h
    · simp at h
  · simp only [Option.some.injEq] at h; subst h; simp [Val.sort, Meaning.sort]
  · simp only [Option.some.injEq] at h; subst h; simp [Val.sort, Meaning.sort]
  · simp at h

/-! ## `Params` and `Evaluate` -/

theorem params_none {r : Row} (h : signed r.t = true) : r.op.params none = .ok (List.replicate r.n (some r.t)) := by
  obtain ⟨o, t, n, sh, m⟩ := r
  cases t <;> simp_all [signed, Row.op, sigs, Operation.params, List.find?]

theorem params_some {r : Row} {t : GoType} (h : signed r.t = true) (ht : signed t = true) :
    r.op.params (some t) = if t = r.t then .ok (List.replicate r.n (some r.t)) else .err (.other ("invalid return type ".toList ++ t.str)) := by
  obtain ⟨o, t, n, sh, m⟩ := r
  rename_i t'
  cases t <;> simp [signed] at h <;> cases t' <;> simp [signed] at ht <;>
    first | rfl | simp [Row.op, sigs, Operation.params, List.find?]

theorem evaluate_eq {r : Row} (h : signed r.t = true) (hp : 0 < r.n) {args : List SmtValue} (hl : args.length = r.n)
    (ha : ∀ a ∈ args, a.type = r.t) :
    r.op.evaluate args = .ok { expr := sprintfS (r.sh.fmt r.n) (args.map (·.expr)), type := r.t } := by
  have hm : args.map (·.type) = List.replicate r.n r.t := by
    rw [← hl]
    exact List.map_eq_replicate_iff.2 ha
  unfold Operation.evaluate
  simp only [hm]
  obtain ⟨o, t, n, sh, m⟩ := r
  obtain ⟨k, rfl⟩ : ∃ k, n = k + 1 := ⟨n - 1, by simp only at hp; omega⟩
  cases t <;> simp [signed] at h <;>
    simp [Row.op, sigs, List.filter, Signature.matches, List.replicate_inj] <;> rfl


/-! ## Rendering of terms -/

mutual
def render : SExp → Str
  | .atom s => s
  | .list l => '(' :: renders l ++ [')']
/-- Separated by blanks. -/
def renders : List SExp → Str
  | [] => []
  | [e] => render e
  | e :: e' :: es => render e ++ ' ' :: renders (e' :: es)
end

theorem renders_cons (e : SExp) (es : List SExp) : renders (e :: es) = render e ++ es.flatMap (fun x => ' ' :: render x) := by
  induction es generalizing e with
  | nil => simp [renders]
  | cons a es ih => rw [renders, ih]; simp

theorem sprintf_cons (c : Char) (f : Str) (as : List Str) (h : c ≠ '%') : sprintfS (c :: f) as = c :: sprintfS f as := by
  cases f with
  | nil => simp [sprintfS]
  | cons d f => simp [sprintfS, h]

theorem sprintf_verb (f a : Str) (as : List Str) : sprintfS ('%' :: 's' :: f) (a :: as) = a ++ sprintfS f as := by
  simp [sprintfS]

theorem sprintf_args (as : List Str) (rest : Str) :
    sprintfS ((List.replicate as.length " %s".toList).flatten ++ rest) as = as.flatMap (fun a => ' ' :: a) ++ sprintfS rest [] := by
  induction as with
  | nil => simp
  | cons a as ih =>
    have h1 : " %s".toList = [' ', '%', 's'] := rfl
    simp only [List.length_cons, List.replicate_succ, List.flatten_cons, List.append_assoc, List.flatMap_cons, List.cons_append]
    rw [h1] at ih ⊢
    simp only [List.cons_append, List.nil_append]
    rw [sprintf_cons _ _ _ (by decide), sprintf_verb, ih]

theorem sprintf_noverb : ∀ (p f : Str) (as : List Str), '%' ∉ p → sprintfS (p ++ f) as = p ++ sprintfS f as
  | [], f, as, _ => rfl
  | c :: p, f, as, h => by
    simp only [List.mem_cons, not_or] at h
    rw [List.cons_append, sprintf_cons _ _ _ (fun e => h.1 e.symm), sprintf_noverb p f as h.2]
    rfl

def Shape.noverb : Shape → Bool
  | .app f => !f.contains '%'
  | .neq => true

theorem rows_noverb : ∀ r ∈ rows, ∀ f, r.sh = .app f → '%' ∉ f := by
  have : ∀ r ∈ rows, r.sh.noverb = true := by decide
  intro r hr f hf
  have := this r hr
  rw [hf] at this
  simpa [Shape.noverb] using this

theorem fmt_app (f : Str) (n : Nat) :
    Shape.fmt (.app f) n = ('(' :: f) ++ ((List.replicate n " %s".toList).flatten ++ [')']) := by
  unfold Shape.fmt
  exact List.append_assoc _ _ _

theorem fmt_neq (n : Nat) :
    Shape.fmt .neq n = "(not (=".toList ++ ((List.replicate n " %s".toList).flatten ++ "))".toList) := by
  unfold Shape.fmt
  exact List.append_assoc _ _ _

theorem rows_chars : ∀ r ∈ rows, ∀ c ∈ r.o.toList, c ≠ '\r' ∧ c ≠ '\n' := by decide

def Shape.goodAtom : Shape → Bool
  | .app f => f ≠ [] && f.all isAtomChar
  | .neq => true

theorem rows_atoms : ∀ r ∈ rows, r.sh.goodAtom = true := by decide

/-- The rank of the term of a row. -/
def Shape.rank (sh : Shape) (ss : List Srt) : Option Srt :=
  match sh with
  | .app f => resultSort f ss
  | .neq => (resultSort "=".toList ss).bind fun s => resultSort "not".toList [s]

theorem rows_rank : ∀ r ∈ rows, r.sh.rank (List.replicate r.n (srt r.t)) = some (srt r.t) := by decide

attribute [irreducible] rows rowOf

theorem sprintf_shape {r : Row} (hr : r ∈ rows) (ts : List SExp) (hl : ts.length = r.n) :
    sprintfS (r.sh.fmt r.n) (ts.map render) = render (r.sh.term ts) := by
  have hl' : (ts.map render).length = r.n := by simpa using hl
  cases hs : r.sh with
  | app f =>
    have hf := rows_noverb r hr f hs
    rw [fmt_app, ← hl', sprintf_noverb _ _ _ (by simpa using hf), sprintf_args]
    have : sprintfS [')'] [] = [')'] := rfl
    rw [this]
    simp only [Shape.term, render, renders_cons]
    simp [List.flatMap_map]
  | neq =>
    rw [fmt_neq, ← hl', sprintf_noverb _ _ _ (by decide), sprintf_args]
    have : sprintfS "))".toList [] = "))".toList := by decide
    rw [this]
    simp only [Shape.term, render, renders_cons]
    simp [List.flatMap_map, render, renders_cons]

/-! ## Evaluation of values -/

mutual
def termOf : Value → SExp
  | .var x => .atom x
  | .sexpr h args =>
    match h.op with
    | .opcode o =>
      match rowOf o with
      | some r => r.sh.term (termsOf args)
      | none => .list []
    | _ => .list []
  | _ => .list []
def termsOf : List Value → List SExp
  | [] => []
  | v :: vs => termOf v :: termsOf vs
end

theorem termsOf_length : ∀ vs, (termsOf vs).length = vs.length
  | [] => rfl
  | _ :: vs => by simp [termsOf, termsOf_length vs]

/-- Add the new names in order of first occurrence. -/
def addNames (names : List Str) (xs : List Str) : List Str :=
  xs.foldl (fun ns x => if x ∈ ns then ns else ns ++ [x]) names

def declLine (t : GoType) (x : Str) : Str := "(declare-const ".toList ++ x ++ [' '] ++ typesort t ++ ")\n".toList

def stOf (pre : Str) (t : GoType) (names : List Str) : GState where
  out := pre ++ names.flatMap (declLine t)
  vars := names.map fun x => (x, ⟨x, t⟩)

theorem gvariable_eq (pre : Str) (t : GoType) (names : List Str) (x : Str) :
    gvariable x (some t) (stOf pre t names) = .ok (⟨x, t⟩, stOf pre t (addNames names [x])) := by
  unfold gvariable
  have hf : (stOf pre t names).vars.find? (fun e => e.1 == x) = if x ∈ names then some (x, ⟨x, t⟩) else none := by
    simp only [stOf, List.find?_map]
    split
    · next h =>
      cases hf : names.find? ((fun e : Str × SmtValue => e.1 == x) ∘ fun x => (x, ⟨x, t⟩)) with
      | none =>
        rw [List.find?_eq_none] at hf
        have := hf x h
        simp at this
      | some y =>
        have := List.find?_some hf
        simp at this
        subst this
        rfl
    · next h =>
      rw [List.find?_eq_none.2]
      · rfl
      · intro y hy hyx
        simp at hyx
        exact h (hyx ▸ hy)
  rw [hf]
  by_cases h : x ∈ names
  · have : addNames names [x] = names := by simp [addNames, h]
    rw [if_pos h, this]
    simp
  · have : addNames names [x] = names ++ [x] := by simp [addNames, h]
    rw [if_neg h, this]
    have e : stOf pre t (names ++ [x]) = ⟨(stOf pre t names).out ++ "(declare-const ".toList ++ x ++ [' '] ++ typesort t ++ ")\n".toList,
        (stOf pre t names).vars ++ [(x, ⟨x, t⟩)]⟩ := by
      unfold stOf declLine
      rw [List.flatMap_append, List.map_append]
      generalize "(declare-const ".toList = a
      generalize ")\n".toList = b
      simp
    rw [e]

theorem unsupported_none (h : Hdr) : unsupported h = none ↔ bareHdr h := by
  unfold unsupported bareHdr
  constructor
  · intro e
    repeat (split at e; exact absurd e (Option.some_ne_none _))
    simp_all
  · rintro ⟨h1, h2, h3, h4, h5, h6⟩
    rw [if_neg (by simp [h1]), if_neg (by simp [h2]), if_neg (by simp [h3]), if_neg (by simp [h4]), if_neg (by simp [h5]), if_neg (by simp [h6])]

theorem fragment_sexpr_iff {s : Srt} {h : Hdr} {args : List Value} : Fragment s (.sexpr h args) ↔
    bareHdr h ∧ ∃ o r, h.op = .opcode o ∧ rowOf o = some r ∧ srt r.t = s ∧ r.n = args.length ∧ Fragments s args := by
  constructor
  · intro hf
    cases hf with
    | @sexpr _ o _ _ hb ho hm hs ha has =>
      refine ⟨hb, o, ?_⟩
      rw [meaning_rows] at hm
      cases hr : rowOf o with
      | none => rw [hr] at hm; simp at hm
      | some r =>
        rw [hr] at hm
        simp at hm
        subst hm
        have hg := rows_good1 r (rowOf_mem hr).1
        exact ⟨r, ho, rfl, by rw [← hg.2.1, hs], by rw [← hg.2.2.1, ha], has⟩
  · rintro ⟨hb, o, r, ho, hr, hs, hn, has⟩
    have hg := rows_good1 r (rowOf_mem hr).1
    exact .sexpr hb ho (m := r.m) (by rw [meaning_rows, hr]; rfl) (by rw [hg.2.1, hs]) (by rw [hg.2.2.1, hn]) has

theorem fragments_cons_iff {s : Srt} {v : Value} {vs : List Value} : Fragments s (v :: vs) ↔ Fragment s v ∧ Fragments s vs :=
  ⟨fun h => by cases h with | cons a b => exact ⟨a, b⟩, fun h => .cons h.1 h.2⟩

theorem addNames_append (names a b : List Str) : addNames names (a ++ b) = addNames (addNames names a) b := by
  simp [addNames, List.foldl_append]

/-! ## Errors -/

theorem sortName_srt {t : GoType} (h : signed t = true) : sortName (srt t) = t.str := by
  revert h
  cases t <;> simp only [signed] <;> decide +kernel

theorem unsupported_some {s : Srt} {h : Hdr} {args : List Value} {e : Err} (he : unsupported h = some e) :
    ∃ c, Wrong s (.sexpr h args) c ∧ e.text = c.say := by
  unfold unsupported at he
  by_cases h1 : h.binding = []
  · rw [if_neg (by simp [h1])] at he
    by_cases h2 : h.type = []
    · rw [if_neg (by simp [h2])] at he
      cases h3 : h.auxInt with
      | some x => rw [if_pos (by simp [h3])] at he; cases he; exact ⟨_, .auxInt h1 h2 (by simp [h3]), rfl⟩
      | none =>
        rw [if_neg (by simp [h3])] at he
        cases h4 : h.aux with
        | some x => rw [if_pos (by simp [h4])] at he; cases he; exact ⟨_, .aux h1 h2 h3 (by simp [h4]), rfl⟩
        | none =>
          rw [if_neg (by simp [h4])] at he
          cases h5 : h.ellipsis with
          | true => rw [if_pos h5] at he; cases he; exact ⟨_, .ellipsis h1 h2 h3 h4 h5, rfl⟩
          | false =>
            rw [if_neg (by simp [h5])] at he
            cases h6 : h.trailing with
            | true => rw [if_pos h6] at he; cases he; exact ⟨_, .trailing h1 h2 h3 h4 h5 h6, rfl⟩
            | false => rw [if_neg (by simp [h6])] at he; cases he
    · rw [if_pos h2] at he; cases he; exact ⟨_, .typeField h1 h2, rfl⟩
  · rw [if_pos h1] at he; cases he; exact ⟨_, .binding h1, rfl⟩

theorem meaning_none {o : Str} (h : rowOf o = none) : meaning o = none := by rw [meaning_rows, h]; rfl
theorem meaning_some {o : Str} {r : Row} (h : rowOf o = some r) : meaning o = some r.m := by rw [meaning_rows, h]; rfl

/-- The call fails, and its error describes the first trouble in the value. -/
def FailsWith {α : Type} (s : Srt) (v : Value) (x : Res α) : Prop :=
  ∃ e p c, x = .err e ∧ Trouble s v p c ∧ e.text = say p c

/-- As the arguments of an opcode, from the given index on, the values have trouble. -/
def FailsFrom {α : Type} (s : Srt) (opcode : Str) (i : Nat) (vs : List Value) (x : Res α) : Prop :=
  ∃ e before v after p c, x = .err e ∧ vs = before ++ v :: after ∧ Fragments s before ∧ Trouble s v p c ∧
    e.text = say ((opcode, i + before.length) :: p) c

theorem wrap_text (opcode : Str) (i : Nat) (p : List (Str × Nat)) (c : Cause) (text : Str) (h : text = say p c) :
    (Err.other (opcode ++ ": evaluate argument ".toList ++ natStr i ++ ": ".toList ++ text)).text = say ((opcode, i) :: p) c := by
  rw [say, decimal_eq, h]
  rfl

theorem other_text (x : Str) : (Err.other x).text = x := rfl

theorem say_count (o : Str) (m n : Nat) :
    say [] (.count o m n) = o ++ ": expect ".toList ++ numeral m ++ " arguments got ".toList ++ numeral n := rfl

theorem say_sort (o : Str) (s : Srt) : say [] (.sort o s) = o ++ ": invalid return type ".toList ++ sortName s := rfl

theorem count_text (o : Str) (m n : Nat) :
    (Err.other (o ++ ": expect ".toList ++ natStr m ++ " arguments got ".toList ++ natStr n)).text = say [] (.count o m n) := by
  rw [say_count, other_text, decimal_eq, decimal_eq]

theorem sort_text (o : Str) {t : GoType} (ht : signed t = true) :
    (Err.other (o ++ ": ".toList ++ (Err.other ("invalid return type ".toList ++ t.str)).text)).text = say [] (.sort o (srt t)) := by
  rw [say_sort, other_text, other_text, sortName_srt ht]
  have : ": invalid return type ".toList = ": ".toList ++ "invalid return type ".toList := by decide +kernel
  rw [this]
  generalize ": ".toList = a
  generalize "invalid return type ".toList = b
  simp only [List.append_assoc]

mutual
theorem geval_eq (pre : Str) (t : GoType) (ht : signed t = true) : ∀ (v : Value) (names : List Str),
    (Fragment (srt t) v →
      geval v (some t) (stOf pre t names) = .ok (⟨render (termOf v), t⟩, stOf pre t (addNames names (vars v)))) ∧
    (¬ Fragment (srt t) v → FailsWith (srt t) v (geval v (some t) (stOf pre t names)))
  | .var x, names => by
    refine ⟨fun _ => ?_, fun h => absurd (.var x) h⟩
    simp only [geval, gvariable_eq]
    rfl
  | .nil, names => ⟨fun h => (by cases h), fun _ => ⟨_, [], _, rfl, .here .absent, rfl⟩⟩
  | .expr e, names => ⟨fun h => (by cases h), fun _ => ⟨_, [], _, rfl, .here .expression, rfl⟩⟩
  | .sexpr h args, names => by
    rw [fragment_sexpr_iff]
    simp only [geval]
    cases hu : unsupported h with
    | some e =>
      have hb : ¬ bareHdr h := fun hb => by rw [(unsupported_none h).2 hb] at hu; simp at hu
      obtain ⟨c, hc, hce⟩ := unsupported_some (s := srt t) (args := args) hu
      exact ⟨fun hh => absurd hh.1 hb, fun _ => ⟨e, [], c, rfl, .here hc, hce⟩⟩
    | none =>
      have hb := (unsupported_none h).1 hu
      cases ho : h.op with
      | nil => exact ⟨fun hh => by obtain ⟨_, o, r, h1, _⟩ := hh; simp at h1, fun _ => ⟨_, [], _, rfl, .here (.unexpanded hb (by simp [ho])), rfl⟩⟩
      | parts ps => exact ⟨fun hh => by obtain ⟨_, o, r, h1, _⟩ := hh; simp at h1, fun _ => ⟨_, [], _, rfl, .here (.unexpanded hb (by simp [ho])), rfl⟩⟩
      | opcode o =>
        simp only [operations_rows]
        cases hr : rowOf o with
        | none =>
          refine ⟨fun hh => ?_, fun _ => ⟨_, [], _, rfl, .here (.opcode hb ho (meaning_none hr)), ?_⟩⟩
          rotate_left
          · show "not supported: ".toList ++ ("opcode ".toList ++ o) = "not supported: opcode ".toList ++ o
            rfl
          obtain ⟨_, o', r, h1, h2, _⟩ := hh
          simp only [Op.opcode.injEq] at h1
          subst h1
          rw [hr] at h2; simp at h2
        | some r =>
          have hmem := (rowOf_mem hr).1
          have hg := rows_good1 r hmem
          simp only [Option.map_some]
          rw [params_some hg.1 ht]
          by_cases hT : t = r.t
          · rw [if_pos hT, Res.wrap, Res.bind_ok]
            by_cases hn : r.n = args.length
            · rw [if_neg (by simp [hn])]
              have ih := gevals_eq pre t ht o args 0 names
              rw [← hT, hn]
              by_cases hF : Fragments (srt t) args
              · refine ⟨fun _ => ?_, fun hh => absurd ⟨hb, o, r, rfl, hr, by rw [hT], hn, hF⟩ hh⟩
                obtain ⟨vs, h1, h2, h3⟩ := ih.1 hF
                rw [h1, Res.bind_ok]
                simp only
                rw [evaluate_eq hg.1 hg.2.2.2 (by rw [hn]; exact h2.1) (by rw [← hT]; exact h3), Res.wrap, Res.bind_ok, h2.2,
                  sprintf_shape hmem _ (by rw [termsOf_length, hn]), hT]
                simp [termOf, ho, hr, vars]
              · refine ⟨fun hh => ?_, fun _ => ?_⟩
                · obtain ⟨_, _, _, _, _, _, _, h⟩ := hh
                  exact absurd h hF
                · obtain ⟨e, before, v, after, p, c, he, hargs, hbef, htr, htx⟩ := ih.2 hF
                  rw [he]
                  refine ⟨e, (o, before.length) :: p, c, rfl, ?_, by rw [htx, Nat.zero_add]⟩
                  subst hargs
                  exact .inside hb ho (meaning_some hr) (by rw [hg.2.1, hT]) (by rw [hg.2.2.1, hn]) hbef htr
            · rw [if_pos (by simpa using hn)]
              refine ⟨fun hh => ?_, fun _ => ⟨_, [], _, rfl, .here (.count hb ho (meaning_some hr) (by rw [hg.2.1, hT]) (by rw [hg.2.2.1]; exact hn)), ?_⟩⟩
              rotate_left
              · rw [List.length_replicate, hg.2.2.1]
                exact count_text o r.n args.length
              obtain ⟨_, o', r', h1, h2, _, h4, _⟩ := hh
              simp only [Op.opcode.injEq] at h1
              subst h1
              rw [hr] at h2
              simp only [Option.some.injEq] at h2
              subst h2
              exact absurd h4 hn
          · rw [if_neg hT]
            refine ⟨fun hh => ?_, fun _ => ⟨_, [], _, rfl,
              .here (.sort hb ho (meaning_some hr) (by rw [hg.2.1]; exact fun e => hT (srt_inj hg.1 ht e).symm)), ?_⟩⟩
            rotate_left
            · exact sort_text o ht
            obtain ⟨_, o', r', h1, h2, h3, _, _⟩ := hh
            simp only [Op.opcode.injEq] at h1
            subst h1
            rw [hr] at h2
            simp only [Option.some.injEq] at h2
            subst h2
            exact absurd (srt_inj hg.1 ht h3).symm hT
theorem gevals_eq (pre : Str) (t : GoType) (ht : signed t = true) (o : Str) : ∀ (vs : List Value) (i : Nat) (names : List Str),
    (Fragments (srt t) vs → ∃ xs,
      gevals o i vs (List.replicate vs.length (some t)) (stOf pre t names) = .ok (xs, stOf pre t (addNames names (varss vs))) ∧
      (xs.length = vs.length ∧ xs.map (·.expr) = (termsOf vs).map render) ∧ ∀ x ∈ xs, x.type = t) ∧
    (¬ Fragments (srt t) vs → FailsFrom (srt t) o i vs (gevals o i vs (List.replicate vs.length (some t)) (stOf pre t names)))
  | [], i, names => ⟨fun _ => ⟨[], rfl, ⟨rfl, rfl⟩, by simp⟩, fun h => absurd .nil h⟩
  | v :: vs, i, names => by
    rw [fragments_cons_iff]
    simp only [List.length_cons, List.replicate_succ, gevals]
    have ih := geval_eq pre t ht v names
    by_cases hv : Fragment (srt t) v
    · rw [ih.1 hv, Res.wrap, Res.bind_ok]
      simp only
      have ih2 := gevals_eq pre t ht o vs (i + 1) (addNames names (vars v))
      by_cases hvs : Fragments (srt t) vs
      · refine ⟨fun _ => ?_, fun h => absurd ⟨hv, hvs⟩ h⟩
        obtain ⟨xs, h1, h2, h3⟩ := ih2.1 hvs
        refine ⟨⟨render (termOf v), t⟩ :: xs, ?_, ⟨by simp [h2.1], by simp [h2.2, termsOf]⟩, ?_⟩
        · rw [h1, Res.bind_ok]
          simp only
          rw [varss, addNames_append]
        · intro x hx
          rcases List.mem_cons.1 hx with rfl | hx
          · rfl
          · exact h3 x hx
      · refine ⟨fun h => absurd h.2 hvs, fun _ => ?_⟩
        obtain ⟨e, before, w, after, p, c, he, hargs, hbef, htr, htx⟩ := ih2.2 hvs
        rw [he]
        exact ⟨e, v :: before, w, after, p, c, rfl, by rw [hargs]; rfl, .cons hv hbef, htr, by
          rw [htx, List.length_cons, Nat.add_assoc, Nat.add_comm 1]⟩
    · refine ⟨fun h => absurd h.1 hv, fun _ => ?_⟩
      obtain ⟨e, p, c, he, htr, htx⟩ := ih.2 hv
      rw [he]
      exact ⟨_, [], v, vs, p, c, rfl, rfl, .nil, htr, wrap_text o i p c _ htx⟩
end

end Verif

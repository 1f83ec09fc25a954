import Verif.Model.Ast
/-!
# A computable equality test on ASTs, used to check concrete examples
-/
namespace Verif.Proof
open Verif

mutual
def sameGo : GoExpr → GoExpr → Bool
  | .nil, .nil => true
  | .ident p n, .ident p' n' => p == p' && n == n'
  | .basicLit p k v, .basicLit p' k' v' => p == p' && k == k' && v == v'
  | .paren p x q, .paren p' x' q' => p == p' && sameGo x x' && q == q'
  | .unary p o x, .unary p' o' x' => p == p' && o == o' && sameGo x x'
  | .binary x p o y, .binary x' p' o' y' => sameGo x x' && p == p' && o == o' && sameGo y y'
  | .call f l a e r, .call f' l' a' e' r' => sameGo f f' && l == l' && sameGos a a' && e == e' && r == r'
  | .star p x, .star p' x' => p == p' && sameGo x x'
  | .selector x p s, .selector x' p' s' => sameGo x x' && p == p' && s == s'
  | .other k, .other k' => k == k'
  | _, _ => false
def sameGos : List GoExpr → List GoExpr → Bool
  | [], [] => true
  | x :: xs, y :: ys => sameGo x y && sameGos xs ys
  | _, _ => false
end

mutual
theorem sameGo_eq : ∀ a b, sameGo a b = true → a = b
  | .nil, b, h => by cases b <;> simp [sameGo] at h ⊢
  | .ident p n, b, h => by cases b <;> simp [sameGo] at h ⊢; exact h
  | .basicLit p k v, b, h => by cases b <;> simp [sameGo] at h ⊢; exact ⟨h.1.1, h.1.2, h.2⟩
  | .paren p x q, b, h => by cases b <;> simp [sameGo] at h ⊢; exact ⟨h.1.1, sameGo_eq _ _ h.1.2, h.2⟩
  | .unary p o x, b, h => by cases b <;> simp [sameGo] at h ⊢; exact ⟨h.1.1, h.1.2, sameGo_eq _ _ h.2⟩
  | .binary x p o y, b, h => by
    cases b <;> simp [sameGo] at h ⊢; exact ⟨sameGo_eq _ _ h.1.1.1, h.1.1.2, h.1.2, sameGo_eq _ _ h.2⟩
  | .call f l a e r, b, h => by
    cases b <;> simp [sameGo] at h ⊢
    exact ⟨sameGo_eq _ _ h.1.1.1.1, h.1.1.1.2, sameGos_eq _ _ h.1.1.2, h.1.2, h.2⟩
  | .star p x, b, h => by cases b <;> simp [sameGo] at h ⊢; exact ⟨h.1, sameGo_eq _ _ h.2⟩
  | .selector x p s, b, h => by cases b <;> simp [sameGo] at h ⊢; exact ⟨sameGo_eq _ _ h.1.1, h.1.2, h.2⟩
  | .other k, b, h => by cases b <;> simp [sameGo] at h ⊢; exact h
theorem sameGos_eq : ∀ a b, sameGos a b = true → a = b
  | [], b, h => by cases b <;> simp [sameGos] at h ⊢
  | x :: xs, b, h => by cases b <;> simp [sameGos] at h ⊢; exact ⟨sameGo_eq _ _ h.1, sameGos_eq _ _ h.2⟩
end

def sameOpt : Option GoExpr → Option GoExpr → Bool
  | none, none => true
  | some a, some b => sameGo a b
  | _, _ => false

theorem sameOpt_eq (a b) (h : sameOpt a b = true) : a = b := by
  cases a <;> cases b <;> simp [sameOpt] at h ⊢
  exact sameGo_eq _ _ h

def sameHdr (a b : Hdr) : Bool :=
  a.binding == b.binding && a.op == b.op && a.type == b.type && sameOpt a.auxInt b.auxInt && sameOpt a.aux b.aux &&
    a.ellipsis == b.ellipsis && a.trailing == b.trailing

theorem sameHdr_eq (a b) (h : sameHdr a b = true) : a = b := by
  obtain ⟨a1, a2, a3, a4, a5, a6, a7⟩ := a
  obtain ⟨b1, b2, b3, b4, b5, b6, b7⟩ := b
  simp [sameHdr] at h ⊢
  obtain ⟨⟨⟨⟨⟨⟨h1, h2⟩, h3⟩, h4⟩, h5⟩, h6⟩, h7⟩ := h
  exact ⟨h1, h2, h3, sameOpt_eq _ _ h4, sameOpt_eq _ _ h5, h6, h7⟩

mutual
def sameValue : Value → Value → Bool
  | .nil, .nil => true
  | .sexpr h a, .sexpr h' a' => sameHdr h h' && sameValues a a'
  | .expr e, .expr e' => sameGo e e'
  | .var n, .var n' => n == n'
  | _, _ => false
def sameValues : List Value → List Value → Bool
  | [], [] => true
  | x :: xs, y :: ys => sameValue x y && sameValues xs ys
  | _, _ => false
end

mutual
theorem sameValue_eq : ∀ a b, sameValue a b = true → a = b
  | .nil, b, h => by cases b <;> simp [sameValue] at h ⊢
  | .sexpr _ _, b, h => by cases b <;> simp [sameValue] at h ⊢; exact ⟨sameHdr_eq _ _ h.1, sameValues_eq _ _ h.2⟩
  | .expr _, b, h => by cases b <;> simp [sameValue] at h ⊢; exact sameGo_eq _ _ h
  | .var _, b, h => by cases b <;> simp [sameValue] at h ⊢; exact h
theorem sameValues_eq : ∀ a b, sameValues a b = true → a = b
  | [], b, h => by cases b <;> simp [sameValues] at h ⊢
  | x :: xs, b, h => by cases b <;> simp [sameValues] at h ⊢; exact ⟨sameValue_eq _ _ h.1, sameValues_eq _ _ h.2⟩
end

def sameRule (a b : Rule) : Bool :=
  sameValue a.match b.match && sameOpt a.condition b.condition && a.block == b.block && sameValue a.result b.result

theorem sameRule_eq (a b) (h : sameRule a b = true) : a = b := by
  obtain ⟨a1, a2, a3, a4⟩ := a
  obtain ⟨b1, b2, b3, b4⟩ := b
  simp [sameRule] at h ⊢
  obtain ⟨⟨⟨h1, h2⟩, h3⟩, h4⟩ := h
  exact ⟨sameValue_eq _ _ h1, sameOpt_eq _ _ h2, h3, sameValue_eq _ _ h4⟩

def sameRules : List Rule → List Rule → Bool
  | [], [] => true
  | x :: xs, y :: ys => sameRule x y && sameRules xs ys
  | _, _ => false

theorem sameRules_eq : ∀ a b, sameRules a b = true → a = b
  | [], b, h => by cases b <;> simp [sameRules] at h ⊢
  | x :: xs, b, h => by cases b <;> simp [sameRules] at h ⊢; exact ⟨sameRule_eq _ _ h.1, sameRules_eq _ _ h.2⟩

/-- Is `a` a success with these rules? -/
def isOk (a : Res File) (rs : List Rule) : Bool :=
  match a with
  | .ok f => sameRules f.rules rs
  | _ => false

theorem isOk_eq {a : Res File} {rs} (h : isOk a rs = true) : a = .ok ⟨rs⟩ := by
  cases a with
  | ok f => obtain ⟨f⟩ := f; simp only [isOk] at h; rw [sameRules_eq _ _ h]
  | err e => simp [isOk] at h
  | panic => simp [isOk] at h

/-- Is `a` the error `e`? -/
def isErr (a : Res File) (e : Err) : Bool :=
  match a with
  | .err e' => e' == e
  | _ => false

theorem isErr_eq {a : Res File} {e} (h : isErr a e = true) : a = .err e := by
  cases a with
  | err e => simp [isErr] at h; rw [h]
  | ok e => simp [isErr] at h
  | panic => simp [isErr] at h

end Verif.Proof

import Verif.Model.Goexpr
import Verif.Spec.Print
/-!
# Go expressions as the rules language keeps them
-/
namespace Verif.Spec
open Verif

mutual
/-- The tree with every source position removed (including the one that marks a call as variadic). -/
def erasePos : GoExpr → GoExpr
  | .nil => .nil
  | .ident _ name => .ident 0 name
  | .basicLit _ k v => .basicLit 0 k v
  | .paren _ x _ => .paren 0 (erasePos x) 0
  | .unary _ op x => .unary 0 op (erasePos x)
  | .binary x _ op y => .binary (erasePos x) 0 op (erasePos y)
  | .call fn _ args _ _ => .call (erasePos fn) 0 (erasePoss args) 0 0
  | .star _ x => .star 0 (erasePos x)
  | .selector x _ sel => .selector (erasePos x) 0 sel
  | .other k => .other k
def erasePoss : List GoExpr → List GoExpr
  | [] => []
  | e :: es => erasePos e :: erasePoss es
end

/-- The text `t` is the Go expression `e`: the Go parser accepts `t`, its tree has supported node kinds only, and `e` is that tree without
source positions. -/
def GoText (lib : GoLib) (t : Str) (e : GoExpr) : Prop :=
  ∃ tree, lib.parseExpr t = some tree ∧ goSupported tree = true ∧ e = erasePos tree

/-- A Go expression in an AST: supported node kinds only, no source positions. -/
def GoClean (e : GoExpr) : Prop := goSupported e = true ∧ erasePos e = e

/-- A text that is nothing but a `//` comment is not a Go expression. -/
def RejectsComment (lib : GoLib) : Prop := ∀ t, '\n' ∉ t → ¬ ∃ e, GoText lib ('/' :: '/' :: t) e

mutual
/-- Two trees that differ in nothing but source positions and variadic markers. -/
inductive SameTokens : GoExpr → GoExpr → Prop where
  | nil : SameTokens .nil .nil
  | ident {p q n} : SameTokens (.ident p n) (.ident q n)
  | basicLit {p q k v} : SameTokens (.basicLit p k v) (.basicLit q k v)
  | paren {p q p' q' x x'} : SameTokens x x' → SameTokens (.paren p x q) (.paren p' x' q')
  | unary {p p' op x x'} : SameTokens x x' → SameTokens (.unary p op x) (.unary p' op x')
  | binary {p p' op x x' y y'} : SameTokens x x' → SameTokens y y' → SameTokens (.binary x p op y) (.binary x' p' op y')
  | call {f f' p p' a a' l l' q q'} : SameTokens f f' → SameTokenss a a' → SameTokens (.call f p a l q) (.call f' p' a' l' q')
  | star {p p' x x'} : SameTokens x x' → SameTokens (.star p x) (.star p' x')
  | selector {x x' p p' s} : SameTokens x x' → SameTokens (.selector x p s) (.selector x' p' s)
  | other {k} : SameTokens (.other k) (.other k)
inductive SameTokenss : List GoExpr → List GoExpr → Prop where
  | nil : SameTokenss [] []
  | cons {x x' xs xs'} : SameTokens x x' → SameTokenss xs xs' → SameTokenss (x :: xs) (x' :: xs')
end

mutual
/-- A tree without nil. -/
def goNoNil : GoExpr → Bool
  | .nil => false
  | .paren _ x _ => goNoNil x
  | .unary _ _ x => goNoNil x
  | .binary x _ _ y => goNoNil x && goNoNil y
  | .call fn _ args _ _ => goNoNil fn && goNoNils args
  | .star _ x => goNoNil x
  | .selector x _ _ => goNoNil x
  | _ => true
def goNoNils : List GoExpr → Bool
  | [] => true
  | e :: es => goNoNil e && goNoNils es
end

end Verif.Spec

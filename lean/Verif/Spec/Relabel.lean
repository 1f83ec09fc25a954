import Verif.Model.Ast
/-!
# Changing everything in a rule but its shape and its opcodes
-/
namespace Verif.Spec

open Verif

/-- New contents for the places of a rule other than opcodes. -/
structure Relabelling where
  var : Str → Str
  expr : GoExpr → GoExpr
  binding : Str → Str
  type : Str → Str
  auxInt : Option GoExpr → Option GoExpr
  aux : Option GoExpr → Option GoExpr
  ellipsis : Bool → Bool
  trailing : Bool → Bool
  condition : Option GoExpr → Option GoExpr
  block : Str → Str

variable (L : Relabelling)

def Relabelling.hdr (h : Hdr) : Hdr where
  op := h.op
  binding := L.binding h.binding
  type := L.type h.type
  auxInt := L.auxInt h.auxInt
  aux := L.aux h.aux
  ellipsis := L.ellipsis h.ellipsis
  trailing := L.trailing h.trailing

mutual
def Relabelling.value : Value → Value
  | .var x => .var (L.var x)
  | .expr e => .expr (L.expr e)
  | .sexpr h args => .sexpr (L.hdr h) (Relabelling.values args)
  | .nil => .nil
def Relabelling.values : List Value → List Value
  | [] => []
  | v :: vs => Relabelling.value v :: Relabelling.values vs
end

def Relabelling.rule (r : Rule) : Rule where
  «match» := L.value r.match
  condition := L.condition r.condition
  block := L.block r.block
  result := L.value r.result

def Relabelling.file (f : File) : File := ⟨f.rules.map L.rule⟩

end Verif.Spec

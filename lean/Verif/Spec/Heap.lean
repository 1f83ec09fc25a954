import Verif.Model.ExpandHeap
/-!
# Specification: what a heap represents
-/
namespace Verif.Spec

open Verif

mutual
/-- In the heap `h`, the interface value `hv` represents the tree `v`. -/
inductive RepV (h : Heap) : HVal → Value → Prop
  | nil : RepV h .nil .nil
  | expr (e) : RepV h (.expr e) (.expr e)
  | var (x) : RepV h (.var x) (.var x)
  | sexpr {p hd arr hvs vs} : h[p]? = some (.sexpr hd arr) → h[arr]? = some (.values hvs) →
      RepVs h hvs vs → RepV h (.sexpr p) (.sexpr hd vs)
/-- The same for lists. -/
inductive RepVs (h : Heap) : List HVal → List Value → Prop
  | nil : RepVs h [] []
  | cons {a v as vs} : RepV h a v → RepVs h as vs → RepVs h (a :: as) (v :: vs)
end

/-- In the heap `h`, the pointer `p` represents the rule `r`. -/
def RepRule (h : Heap) (p : Addr) (r : Rule) : Prop :=
  ∃ m res, h[p]? = some (.rule m r.condition r.block res) ∧ RepV h m r.match ∧ RepV h res r.result

/-- Rules, pointwise. -/
inductive RepRules (h : Heap) : List Addr → List Rule → Prop
  | nil : RepRules h [] []
  | cons {p r ps rs} : RepRule h p r → RepRules h ps rs → RepRules h (p :: ps) (r :: rs)

/-- In the heap `h`, the pointer `p` represents the file `f`, whose rule pointers are `ps`. -/
def RepFile (h : Heap) (p : Addr) (ps : List Addr) (f : File) : Prop :=
  ∃ arr, h[p]? = some (.file arr) ∧ h[arr]? = some (.rules ps) ∧ RepRules h ps f.rules

/-- Nesting depth of a value. -/
def depth : Value → Nat
  | .sexpr _ args => depths args + 1
  | _ => 1
where
  /-- maximum over a list -/
  depths : List Value → Nat
    | [] => 0
    | v :: vs => max (depth v) (depths vs)

/-- Nesting depth of a file. -/
def fileDepth (f : File) : Nat := (f.rules.map fun r => max (depth r.match) (depth r.result)).foldr max 0

end Verif.Spec

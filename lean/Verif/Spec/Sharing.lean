import Verif.Spec.Heap
import Verif.Spec.Expand
/-!
# What an expanded rule has in common with the rule it comes from
-/
namespace Verif.Spec

open Verif

mutual
/-- In the heap `h`, `hv` was the value `v`; in the later heap `h'`, `hv'` is made from it, and the cells in the list are new (each as often as it is used):

* a part without alternations is the *same object* as before;
* an S-expression with an alternation somewhere inside is a new object with a new array of arguments; it has another opcode, the other fields are those of the original. -/
inductive Parts (h h' : Heap) : Value → HVal → HVal → List Addr → Prop
  | same {v hv} : sizes v = [] → Parts h h' v hv hv []
  | copy {hd vs p arr hvs q o arr' hvs' L} : sizes (.sexpr hd vs) ≠ [] → h[p]? = some (.sexpr hd arr) → h[arr]? = some (.values hvs) →
      h.length ≤ q → h.length ≤ arr' → h'[q]? = some (.sexpr { hd with op := .opcode o } arr') → h'[arr']? = some (.values hvs') →
      PartsL h h' vs hvs hvs' L → Parts h h' (.sexpr hd vs) (.sexpr p) (.sexpr q) (q :: arr' :: L)
/-- The same for lists. -/
inductive PartsL (h h' : Heap) : List Value → List HVal → List HVal → List Addr → Prop
  | nil : PartsL h h' [] [] [] []
  | cons {v a a' vs as as' L M} : Parts h h' v a a' L → PartsL h h' vs as as' M → PartsL h h' (v :: vs) (a :: as) (a' :: as') (L ++ M)
end

/-- `q'` is a new rule object in `h'` made from the rule `q`, which was `r`; the cells of its own are `L`: the rule itself and the new ones in its match and in its result. -/
def NewRule (h h' : Heap) (r : Rule) (q q' : Addr) (L : List Addr) : Prop :=
  ∃ m res m' res' Lm Lr, h[q]? = some (.rule m r.condition r.block res) ∧ h.length ≤ q' ∧ h'[q']? = some (.rule m' r.condition r.block res') ∧
    Parts h h' r.match m m' Lm ∧ Parts h h' r.result res res' Lr ∧ L = q' :: (Lm ++ Lr)

mutual
/-- From `hv` one gets to the cell `a`, following pointers. -/
inductive ReachV (h : Heap) : HVal → Addr → Prop
  | here {p} : ReachV h (.sexpr p) p
  | array {p hd arr} : h[p]? = some (.sexpr hd arr) → ReachV h (.sexpr p) arr
  | arg {p hd arr hvs a} : h[p]? = some (.sexpr hd arr) → h[arr]? = some (.values hvs) → ReachVs h hvs a → ReachV h (.sexpr p) a
/-- From one of a list. -/
inductive ReachVs (h : Heap) : List HVal → Addr → Prop
  | head {v vs a} : ReachV h v a → ReachVs h (v :: vs) a
  | tail {v vs a} : ReachVs h vs a → ReachVs h (v :: vs) a
end

/-- From the rule `q` one gets to the cell `a`. -/
inductive ReachRule (h : Heap) (q : Addr) : Addr → Prop
  | here : ReachRule h q q
  | «match» {m cond block res a} : h[q]? = some (.rule m cond block res) → ReachV h m a → ReachRule h q a
  | res {m cond block res a} : h[q]? = some (.rule m cond block res) → ReachV h res a → ReachRule h q a

end Verif.Spec

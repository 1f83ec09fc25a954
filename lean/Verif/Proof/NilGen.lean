import Verif.Proof.NilExpand
import Verif.Proof.Cmd
/-! # Lemmas about the generator and the filter on ASTs with nil pointers (C74) -/
namespace Verif.Proof.Nil

open Verif Verif.Spec

theorem nprintBytes_eq (n : NNode) (st : Stand) (h : (nflat n).any isNilPtr = false) : nprintBytes n = printBytes (fillNode st n) := by
  unfold nprintBytes nfprint printBytes fprint
  rw [npnode_items, runP_noHole _ st _ (by rw [holes_node, h]), pnode_items, fillNode_items]
  simp only
  generalize runItems bufferWriter (substs st (nItems n)) { w := [], err := none } = p
  rcases p with ⟨w, _ | e⟩ <;> rfl

theorem nprintBytes_panic (n : NNode) (h : (nflat n).any isNilPtr = true) : nprintBytes n = .panic := by
  unfold nprintBytes nfprint
  rw [npnode_items]
  obtain ⟨q, hq⟩ := (runP_panic_iff bufferWriter (nItems n) { w := [], err := none }).2 (by rw [holes_node, h])
  rw [hq]

mutual
theorem ngeval_fill (st : Stand) (v : NValue) (h : (nflatValue v).any isNilPtr = false) (t : Option GoType) (s : GState) :
    ngeval v t s = geval (fill st v) t s := by
  cases v with
  | sexpr hd args =>
    simp only [nflatValue, List.any_cons, List.any_append, Bool.or_eq_false_iff] at h
    have e := fun op ps s => ngevals_fill st args h.2.2 op 0 ps s
    have el : (fills st args).length = args.length := by rw [fills_map, List.length_map]
    simp only [ngeval, fill, geval, e, el]
    rfl
  | sexprNil => simp [nflatValue, isNilPtr] at h
  | exprNil => simp [nflatValue, isNilPtr] at h
  | _ => simp [ngeval, fill, geval]
theorem ngevals_fill (st : Stand) (vs : List NValue) (h : (nflatValues vs).any isNilPtr = false) (op : Str) (i : Nat) (ps : List (Option GoType)) (s : GState) :
    ngevals op i vs ps s = gevals op i (fills st vs) ps s := by
  cases vs with
  | nil => simp [ngevals, fills, gevals]
  | cons v vs =>
    simp only [nflatValues, List.any_append, Bool.or_eq_false_iff] at h
    cases ps with
    | nil => simp [ngevals, fills, gevals]
    | cons p ps =>
      have e1 := ngeval_fill st v h.1
      have e2 := fun i s => ngevals_fill st vs h.2 op i ps s
      simp only [ngevals, fills, gevals, e1, e2]
end

theorem ngenerate_eq (r : NRule) (st : Stand) (h : (nflatRule (some r)).any isNilPtr = false) : ngenerate (some r) = generate (fillRule st r) := by
  have h' : (nflat (.rule r)).any isNilPtr = false := h
  simp only [nflatRule, List.any_cons, List.any_append, Bool.or_eq_false_iff] at h
  have e1 : nprintBytes (ruleNode (some r)) = printBytes (.rule (fillRule st r)) := nprintBytes_eq _ st h'
  unfold ngenerate generate
  simp only [e1]
  have e2 := ngeval_fill st r.match h.2.1
  have e3 := ngeval_fill st r.result h.2.2
  simp only [e2, e3]
  rfl

theorem ngenerate_panic (r : Option NRule) (h : (nflatRule r).any isNilPtr = true) : ngenerate r = .panic := by
  unfold ngenerate
  rw [nprintBytes_panic _ (by rw [nflat_rule]; exact h)]
  rfl

end Verif.Proof.Nil

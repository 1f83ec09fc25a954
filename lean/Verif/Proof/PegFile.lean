import Verif.Spec.PegFile
/-! # Reading rules.peg -/
namespace Verif.Proof
open Verif Verif.Spec

/-! ## Reading the file -/

mutual
def sameExp : Peg.Exp → Peg.Exp → Bool
  | .any, .any => true
  | .cls a b c, .cls a' b' c' => a == a' && b == b' && c == c'
  | .lit a, .lit b => a == b
  | .nt a, .nt b => a == b
  | .seq a, .seq b => sameExps a b
  | .choice a, .choice b => sameExps a b
  | .star a, .star b => sameExp a b
  | .plus a, .plus b => sameExp a b
  | .opt a, .opt b => sameExp a b
  | .not a, .not b => sameExp a b
  | _, _ => false
def sameExps : List Peg.Exp → List Peg.Exp → Bool
  | [], [] => true
  | a :: l, b :: l' => sameExp a b && sameExps l l'
  | _, _ => false
end

mutual
theorem sameExp_eq : ∀ a b, sameExp a b = true → a = b
  | .any, b, h => by cases b <;> simp_all [sameExp]
  | .cls a b c, x, h => by cases x <;> simp_all [sameExp]
  | .lit a, x, h => by cases x <;> simp_all [sameExp]
  | .nt a, x, h => by cases x <;> simp_all [sameExp]
  | .seq a, x, h => by cases x <;> simp [sameExp] at h; rw [sameExps_eq _ _ h]
  | .choice a, x, h => by cases x <;> simp [sameExp] at h; rw [sameExps_eq _ _ h]
  | .star a, x, h => by cases x <;> simp [sameExp] at h; rw [sameExp_eq _ _ h]
  | .plus a, x, h => by cases x <;> simp [sameExp] at h; rw [sameExp_eq _ _ h]
  | .opt a, x, h => by cases x <;> simp [sameExp] at h; rw [sameExp_eq _ _ h]
  | .not a, x, h => by cases x <;> simp [sameExp] at h; rw [sameExp_eq _ _ h]
theorem sameExps_eq : ∀ a b, sameExps a b = true → a = b
  | [], b, h => by cases b <;> simp_all [sameExps]
  | a :: l, b, h => by
    cases b with
    | nil => simp [sameExps] at h
    | cons b l' =>
      simp only [sameExps, Bool.and_eq_true] at h
      rw [sameExp_eq _ _ h.1, sameExps_eq _ _ h.2]
end

def sameDefs : Option (List (Peg.NT × Peg.Exp)) → List Peg.NT → Bool
  | some l, xs => l.map Prod.fst == xs && l.all fun p => sameExp p.2 (Peg.rules p.1)
  | none, _ => false

theorem sameDefs_eq {o xs} (h : sameDefs o xs = true) : o = some (xs.map fun x => (x, Peg.rules x)) := by
  cases o with
  | none => cases h
  | some l =>
    simp only [sameDefs, Bool.and_eq_true, beq_iff_eq, List.all_eq_true] at h
    obtain ⟨rfl, h⟩ := h
    congr 1
    rw [List.map_map]
    conv => lhs; rw [← List.map_id l]
    apply List.map_congr_left
    intro p hp
    show p = (p.1, Peg.rules p.1)
    rw [← sameExp_eq _ _ (h p hp)]

theorem rules_read : Peg.readGrammar Peg.rulesPeg = some (Peg.NT.all.map fun x => (x, Peg.rules x)) :=
  sameDefs_eq (by decide +kernel)

end Verif.Proof

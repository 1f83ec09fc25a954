import Verif.Model.Filter
import Verif.Proof.Expand
/-! # Lemmas about the filter -/
namespace Verif

open Verif.Spec

theorem hasFeature_spec (r : Rule) (hn : NoNil (.rule r)) :
    ∃ b, hasFeature r = some b ∧ (b = false ↔ Simple r) := by
  obtain ⟨b1, e1, h1⟩ := hasX r nodeHasBinding (fun h => h.binding != []) (by intro n; cases n <;> rfl) hn (fun h => h.binding ≠ []) (by simp)
  obtain ⟨b2, e2, h2⟩ := hasX r nodeHasType (fun h => h.type != []) (by intro n; cases n <;> rfl) hn (fun h => h.type ≠ []) (by simp)
  obtain ⟨b3, e3, h3⟩ := hasX r nodeHasAux (fun h => h.aux.isSome) (by intro n; cases n <;> rfl) hn (fun h => h.aux ≠ none) (by intro h; cases h.aux <;> simp)
  obtain ⟨b4, e4, h4⟩ := hasX r nodeHasAuxInt (fun h => h.auxInt.isSome) (by intro n; cases n <;> rfl) hn (fun h => h.auxInt ≠ none) (by intro h; cases h.auxInt <;> simp)
  obtain ⟨b5, e5, h5⟩ := hasX r nodeHasEllipsis (fun h => h.ellipsis) (by intro n; cases n <;> rfl) hn (fun h => h.ellipsis = true) (by simp)
  obtain ⟨b6, e6, h6⟩ := hasX r nodeHasTrailing (fun h => h.trailing) (by intro n; cases n <;> rfl) hn (fun h => h.trailing = true) (by simp)
  have key : RuleHas (fun h => ¬ HdrSimple h) r ↔
      (b1 = true ∨ b2 = true ∨ b3 = true ∨ b4 = true ∨ b5 = true ∨ b6 = true) := by
    rw [h1, h2, h3, h4, h5, h6]
    constructor
    · rintro ⟨h, args, hp, hs⟩
      simp only [HdrSimple, Classical.not_and_iff_not_or_not, Bool.not_eq_false] at hp
      rcases hp with hp | hp | hp | hp | hp | hp
      · exact .inl ⟨h, args, hp, hs⟩
      · exact .inr (.inl ⟨h, args, hp, hs⟩)
      · exact .inr (.inr (.inr (.inl ⟨h, args, hp, hs⟩)))
      · exact .inr (.inr (.inl ⟨h, args, hp, hs⟩))
      · exact .inr (.inr (.inr (.inr (.inl ⟨h, args, hp, hs⟩))))
      · exact .inr (.inr (.inr (.inr (.inr ⟨h, args, hp, hs⟩))))
    · rintro (⟨h, args, hp, hs⟩ | ⟨h, args, hp, hs⟩ | ⟨h, args, hp, hs⟩ | ⟨h, args, hp, hs⟩ | ⟨h, args, hp, hs⟩ | ⟨h, args, hp, hs⟩) <;>
        exact ⟨h, args, by simp [HdrSimple, hp], hs⟩
  have hf : hasFeature r = some (r.condition.isSome || (r.block != [] || (b1 || (b2 || (b3 || (b4 || (b5 || b6))))))) := by
    unfold hasFeature hasBinding hasType hasAux hasAuxInt hasEllipsis hasTrailing
    rw [e1, e2, e3, e4, e5, e6]
    cases r.condition.isSome <;> cases (r.block != []) <;> cases b1 <;> cases b2 <;> cases b3 <;> cases b4 <;> cases b5 <;> rfl
  refine ⟨_, hf, ?_⟩
  unfold Simple
  rw [key]
  simp only [Bool.or_eq_false_iff, not_or, Bool.not_eq_true]
  cases hc : r.condition <;> cases hb : r.block <;> simp

theorem filterSimple_cons (r : Rule) (rs : List Rule) (hn : NoNil (.rule r)) [Decidable (Simple r)] :
    filterSimple (r :: rs) = (do let rest ← filterSimple rs; .ok (if Simple r then r :: rest else rest)) := by
  obtain ⟨b, hb, hs⟩ := hasFeature_spec r hn
  simp only [filterSimple, hb]
  cases b with
  | false => simp [hs.1 rfl]
  | true =>
    have : ¬ Simple r := fun h => by simpa using hs.2 h
    simp only [this, if_false]
    cases filterSimple rs <;> rfl

open Classical in
theorem filterSimple_eq (rs : List Rule) (hn : ∀ r ∈ rs, NoNil (.rule r)) :
    filterSimple rs = .ok (rs.filter fun r => decide (Simple r)) := by
  induction rs with
  | nil => rfl
  | cons r rs ih =>
    simp only [List.forall_mem_cons] at hn
    rw [filterSimple_cons r rs hn.1, ih hn.2, Res.bind_ok, List.filter_cons]
    by_cases h : Simple r <;> simp [h]

theorem simple_mapRuleOps (f : Op → Op) (r : Rule) : Simple (mapRuleOps f r) ↔ Simple r := by
  unfold Simple
  rw [ruleHas_mapRuleOps (fun h => ¬ HdrSimple h) (by intro h o; rfl)]
  rfl

end Verif

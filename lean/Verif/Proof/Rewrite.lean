import Verif.Spec.Rewrite
import Verif.Proof.Smt2Sem
/-!
# Lemmas about rewriting and renaming (C66, C67)
-/
namespace Verif

open Verif.Spec Verif.Spec.Smt Verif.Spec.Ssa

/-- The values of the expressions put for the variables. -/
def envOf (env : Str → Val) (θ : Str → Value) : Str → Val := fun x => (eval env (θ x)).getD (.bool false)

mutual
theorem eval_subst (env : Str → Val) (θ : Str → Value) : ∀ (v : Value), (∀ x ∈ vars v, ∃ a, eval env (θ x) = some a) →
    eval env (subst θ v) = eval (envOf env θ) v
  | .var x, h => by
    obtain ⟨a, ha⟩ := h x (by simp [vars])
    simp [subst, eval, envOf, ha]
  | .sexpr hd args, h => by
    simp only [subst, eval]
    rw [evals_subst env θ args (by simpa [vars] using h)]
  | .nil, _ => by simp [subst, eval]
  | .expr e, _ => by simp [subst, eval]
theorem evals_subst (env : Str → Val) (θ : Str → Value) : ∀ (vs : List Value), (∀ x ∈ varss vs, ∃ a, eval env (θ x) = some a) →
    evals env (substs θ vs) = evals (envOf env θ) vs
  | [], _ => rfl
  | v :: vs, h => by
    simp only [substs, evals]
    rw [eval_subst env θ v (fun x hx => h x (by simp [varss, hx])), evals_subst env θ vs (fun x hx => h x (by simp [varss, hx]))]
end

mutual
theorem subst_defined (env : Str → Val) (θ : Str → Value) : ∀ (v : Value) {a}, eval env (subst θ v) = some a →
    ∀ x ∈ vars v, ∃ a, eval env (θ x) = some a
  | .var x, a, h => by
    simp only [vars, List.mem_singleton, forall_eq]
    exact ⟨a, h⟩
  | .sexpr hd args, a, h => by
    simp only [subst, eval] at h
    split at h
    · rename_i o _
      cases hm : meaning o with
      | none => rw [hm] at h; simp at h
      | some m =>
        rw [hm, Option.bind_some] at h
        cases he : evals env (substs θ args) with
        | none => rw [he] at h; simp at h
        | some as => simpa [vars] using substs_defined env θ args he
    · simp at h
  | .nil, _, _ => by simp [vars]
  | .expr e, _, _ => by simp [vars]
theorem substs_defined (env : Str → Val) (θ : Str → Value) : ∀ (vs : List Value) {as}, evals env (substs θ vs) = some as →
    ∀ x ∈ varss vs, ∃ a, eval env (θ x) = some a
  | [], _, _ => by simp [varss]
  | v :: vs, as, h => by
    simp only [substs, evals] at h
    cases h1 : eval env (subst θ v) with
    | none => rw [h1] at h; simp at h
    | some a =>
      cases h2 : evals env (substs θ vs) with
      | none => rw [h1, h2] at h; simp at h
      | some as' =>
        intro x hx
        simp only [varss, List.mem_append] at hx
        rcases hx with hx | hx
        · exact subst_defined env θ v h1 x hx
        · exact substs_defined env θ vs h2 x hx
end

/-- An instance of a valid rule of the fragment. -/
theorem instance_sound {so : Srt} {r : Rule} (hF : RuleFragment so r) (hv : Valid r) (hb : Bound r) (env : Str → Val) (θ : Str → Value)
    {a : Val} (h : eval env (subst θ r.match) = some a) : eval env (subst θ r.result) = some a := by
  obtain ⟨_, _, ⟨hd, args, hmm⟩, hm, hr⟩ := hF
  have hd1 := subst_defined env θ r.match h
  have h1 := eval_subst env θ r.match hd1
  rw [h] at h1
  have hs : a.sort = so := by
    have h1' := h1
    rw [hmm] at h1' hm
    cases hm with
    | sexpr h1 ho hme hs har hargs =>
      simp only [eval, ho, hme, Option.bind_some] at h1'
      cases hes : evals (envOf env θ) args with
      | none => rw [hes] at h1'; simp at h1'
      | some as =>
        rw [hes, Option.bind_some] at h1'
        rw [(apply_sorts h1'.symm).1, hs]
  have hsort := eval_sorted _ hm h1.symm hs
  obtain ⟨b, e1, _, e2⟩ := eval_term (envOf env θ) hr (fun x hx => hsort x (hb x hx))
  have := hv _ a b h1.symm e1 (by rw [hs, e2])
  subst this
  rw [eval_subst env θ r.result (fun x hx => hd1 x (hb x hx)), e1]

theorem evals_inside (env : Str → Val) {a b : Value} (h : ∀ x, eval env a = some x → eval env b = some x) :
    ∀ (pre post : List Value) (as : List Val), evals env (pre ++ a :: post) = some as → evals env (pre ++ b :: post) = some as
  | [], post, as, he => by
    simp only [List.nil_append, evals] at he ⊢
    cases h1 : eval env a with
    | none => rw [h1] at he; simp at he
    | some x => rw [h x h1]; rw [h1] at he; exact he
  | v :: pre, post, as, he => by
    simp only [List.cons_append, evals] at he ⊢
    cases h1 : eval env v with
    | none => rw [h1] at he; simp at he
    | some x =>
      rw [h1, Option.bind_some] at he
      rw [Option.bind_some]
      cases h2 : evals env (pre ++ a :: post) with
      | none => rw [h2] at he; simp at he
      | some ys =>
        rw [evals_inside env h pre post ys h2]
        rw [h2] at he; exact he

theorem step_sound {rules : List Rule} (hr : ∀ r ∈ rules, ∃ so, RuleFragment so r ∧ Valid r ∧ Bound r) (env : Str → Val) {e e' : Value}
    (h : Step rules e e') : ∀ {a}, eval env e = some a → eval env e' = some a := by
  induction h with
  | here θ hm =>
    obtain ⟨so, h1, h2, h3⟩ := hr _ hm
    intro a ha
    exact instance_sound h1 h2 h3 env θ ha
  | @inside h pre post a b _ ih =>
    intro x hx
    simp only [eval] at hx ⊢
    split at hx
    · rename_i o ho
      cases hm : meaning o with
      | none => rw [hm] at hx; simp at hx
      | some m =>
        rw [hm, Option.bind_some] at hx
        rw [Option.bind_some]
        cases he : evals env (pre ++ a :: post) with
        | none => rw [he] at hx; simp at hx
        | some as =>
          rw [evals_inside env (fun x => ih) pre post as he]
          rw [he] at hx; exact hx
    · simp at hx

theorem steps_sound {rules : List Rule} (hr : ∀ r ∈ rules, ∃ so, RuleFragment so r ∧ Valid r ∧ Bound r) (env : Str → Val) {e e' : Value}
    (h : Steps rules e e') : ∀ {a}, eval env e = some a → eval env e' = some a := by
  induction h with
  | done => exact fun h => h
  | step h1 _ ih => exact fun h => ih (step_sound hr env h1 h)

mutual
theorem subst_var : ∀ v : Value, subst Value.var v = v
  | .var x => rfl
  | .sexpr h args => by rw [subst, substs_var args]
  | .nil => rfl
  | .expr e => rfl
theorem substs_var : ∀ vs : List Value, substs Value.var vs = vs
  | [] => rfl
  | v :: vs => by rw [substs, subst_var v, substs_var vs]
end

/-! ## Renaming -/

mutual
theorem eval_rename (env : Str → Val) (ρ : Str → Str) : ∀ v : Value, eval env (rename ρ v) = eval (fun x => env (ρ x)) v
  | .var x => rfl
  | .sexpr h args => by simp only [rename, eval]; rw [evals_rename env ρ args]
  | .nil => rfl
  | .expr e => rfl
theorem evals_rename (env : Str → Val) (ρ : Str → Str) : ∀ vs : List Value, evals env (renames ρ vs) = evals (fun x => env (ρ x)) vs
  | [] => rfl
  | v :: vs => by simp only [renames, evals]; rw [eval_rename env ρ v, evals_rename env ρ vs]
end

mutual
theorem eval_congr {env env' : Str → Val} : ∀ v : Value, (∀ x ∈ vars v, env x = env' x) → eval env v = eval env' v
  | .var x, h => by simp only [eval]; rw [h x (by simp [vars])]
  | .sexpr hd args, h => by simp only [eval]; rw [evals_congr args (by simpa [vars] using h)]
  | .nil, _ => rfl
  | .expr e, _ => rfl
theorem evals_congr {env env' : Str → Val} : ∀ vs : List Value, (∀ x ∈ varss vs, env x = env' x) → evals env vs = evals env' vs
  | [], _ => rfl
  | v :: vs, h => by
    simp only [evals]
    rw [eval_congr v (fun x hx => h x (by simp [varss, hx])), evals_congr vs (fun x hx => h x (by simp [varss, hx]))]
end

mutual
theorem vars_rename (ρ : Str → Str) : ∀ v : Value, vars (rename ρ v) = (vars v).map ρ
  | .var x => rfl
  | .sexpr h args => by simp only [rename, vars]; exact varss_rename ρ args
  | .nil => rfl
  | .expr e => rfl
theorem varss_rename (ρ : Str → Str) : ∀ vs : List Value, varss (renames ρ vs) = (varss vs).map ρ
  | [] => rfl
  | v :: vs => by simp only [renames, varss, List.map_append]; rw [vars_rename ρ v, varss_rename ρ vs]
end

theorem renames_length (ρ : Str → Str) : ∀ vs : List Value, (renames ρ vs).length = vs.length
  | [] => rfl
  | v :: vs => by simp [renames, renames_length ρ vs]

mutual
theorem fragment_rename (so : Srt) (ρ : Str → Str) : ∀ v : Value, Fragment so (rename ρ v) ↔ Fragment so v
  | .var x => ⟨fun _ => .var _, fun _ => .var _⟩
  | .sexpr h args => by
    constructor
    · intro hf
      cases hf with
      | sexpr h1 h2 h3 h4 h5 h6 => exact .sexpr h1 h2 h3 h4 (by rw [h5, renames_length]) ((fragments_rename so ρ args).1 h6)
    · intro hf
      cases hf with
      | sexpr h1 h2 h3 h4 h5 h6 => exact .sexpr h1 h2 h3 h4 (by rw [h5, renames_length]) ((fragments_rename so ρ args).2 h6)
  | .nil => ⟨(by intro h; cases h), (by intro h; cases h)⟩
  | .expr e => ⟨(by intro h; cases h), (by intro h; cases h)⟩
theorem fragments_rename (so : Srt) (ρ : Str → Str) : ∀ vs : List Value, Fragments so (renames ρ vs) ↔ Fragments so vs
  | [] => ⟨fun _ => .nil, fun _ => .nil⟩
  | v :: vs => by
    constructor
    · intro h
      cases h with
      | cons h1 h2 => exact .cons ((fragment_rename so ρ v).1 h1) ((fragments_rename so ρ vs).1 h2)
    · intro h
      cases h with
      | cons h1 h2 => exact .cons ((fragment_rename so ρ v).2 h1) ((fragments_rename so ρ vs).2 h2)
end

theorem ruleFragment_rename (so : Srt) (ρ : Str → Str) (r : Rule) : RuleFragment so (renameRule ρ r) ↔ RuleFragment so r := by
  unfold RuleFragment renameRule
  simp only [fragment_rename]
  have : (∃ h args, rename ρ r.match = .sexpr h args) ↔ ∃ h args, r.match = .sexpr h args := by
    cases r.match <;> simp [rename]
  rw [this]

theorem valid_rename {r : Rule} (ρ : Str → Str) (h : Valid r) : Valid (renameRule ρ r) := by
  intro env a b ha hb hs
  exact h (fun x => env (ρ x)) a b (by rw [← eval_rename]; exact ha) (by rw [← eval_rename]; exact hb) hs

open Classical in
theorem valid_rename_inj {r : Rule} (ρ : Str → Str) (hi : ∀ x ∈ ruleVars r, ∀ y ∈ ruleVars r, ρ x = ρ y → x = y)
    (h : Valid (renameRule ρ r)) : Valid r := by
  intro env a b ha hb hs
  -- the environment with the names renamed
  let env' : Str → Val := fun z => if hz : ∃ x ∈ ruleVars r, ρ x = z then env (choose hz) else .bool false
  have hx : ∀ x ∈ ruleVars r, env x = env' (ρ x) := by
    intro x hx
    have hz : ∃ y ∈ ruleVars r, ρ y = ρ x := ⟨x, hx, rfl⟩
    show env x = if hz : ∃ y ∈ ruleVars r, ρ y = ρ x then env (choose hz) else .bool false
    rw [dif_pos hz]
    exact congrArg env (hi x hx _ (choose_spec hz).1 (choose_spec hz).2.symm)
  refine h env' a b ?_ ?_ hs
  · show eval env' (rename ρ r.match) = _
    rw [eval_rename, ← ha]
    exact (eval_congr r.match fun x hm => hx x (by simp [ruleVars, hm])).symm
  · show eval env' (rename ρ r.result) = _
    rw [eval_rename, ← hb]
    exact (eval_congr r.result fun x hm => hx x (by simp [ruleVars, hm])).symm

theorem ruleVars_rename (ρ : Str → Str) (r : Rule) : ruleVars (renameRule ρ r) = (ruleVars r).map ρ := by
  simp [ruleVars, renameRule, vars_rename]

end Verif

import Verif.Spec.Relabel
import Verif.Model.Expand
/-!
# Expansion commutes with relabelling (C68)
-/
namespace Verif

open Verif.Spec

/-- Apply a function to a result. -/
def Res.mapOk {α β : Type} (f : α → β) : Res α → Res β
  | .ok a => .ok (f a)
  | .err e => .err e
  | .panic => .panic

theorem getIdx_map {α β : Type} (f : α → β) (xs : List α) (i : Nat) : getIdx (xs.map f) i = (getIdx xs i).mapOk f := by
  simp only [getIdx, List.getElem?_map]
  cases xs[i]? <;> rfl

theorem forRes_map {α α' β β' : Type} {f : α → Res β} {g : α' → Res β'} (m : α → α') (n : β → β') (h : ∀ a, g (m a) = (f a).mapOk n) :
    ∀ xs : List α, forRes g (xs.map m) = (forRes f xs).mapOk (List.map n)
  | [] => rfl
  | x :: xs => by
    simp only [List.map_cons, forRes]
    rw [h x, forRes_map m n h xs]
    cases f x <;> simp [Res.mapOk]
    cases forRes f xs <;> simp [Res.mapOk]

theorem forRes_map' {α β β' : Type} {f : α → Res β} {g : α → Res β'} (n : β → β') (h : ∀ a, g a = (f a).mapOk n) (xs : List α) :
    forRes g xs = (forRes f xs).mapOk (List.map n) := by
  have := forRes_map id n h xs
  simpa using this

variable (L : Relabelling)

theorem values_map : ∀ vs : List Value, L.values vs = vs.map L.value
  | [] => by simp [Relabelling.values]
  | v :: vs => by simp [Relabelling.values, values_map vs]

theorem buildSExpr_relabel (h : Hdr) (os : List Str) (xss : List (List Value)) (i : Nat) :
    buildSExpr (L.hdr h) os (xss.map (List.map L.value)) i = (buildSExpr h os xss i).mapOk L.value := by
  unfold buildSExpr
  rw [forRes_map (f := fun alts => getIdx alts (idx i alts.length)) (List.map L.value) L.value (by intro a; simp [getIdx_map])]
  cases getIdx os (idx i os.length) <;> simp [Res.mapOk]
  cases forRes (fun alts => getIdx alts (idx i alts.length)) xss <;> simp [Res.mapOk, Relabelling.value, Relabelling.hdr, values_map]

mutual
theorem expandvalue_relabel : ∀ v : Value, expandvalue (L.value v) = (expandvalue v).mapOk (List.map L.value)
  | .var x => by simp [Relabelling.value, expandvalue, Res.mapOk]
  | .expr e => by simp [Relabelling.value, expandvalue, Res.mapOk]
  | .nil => by simp [Relabelling.value, expandvalue, Res.mapOk]
  | .sexpr h args => by
    simp only [Relabelling.value, expandvalue]
    have hop : (L.hdr h).op = h.op := rfl
    rw [hop]
    cases expandop h.op with
    | err e => simp [Res.mapOk]
    | panic => simp [Res.mapOk]
    | ok os =>
      simp only [Res.bind_ok]
      rw [expandargs_relabel os.length args]
      cases expandargs os.length args with
      | err e => simp [Res.mapOk]
      | panic => simp [Res.mapOk]
      | ok p =>
        obtain ⟨n, xss⟩ := p
        simp only [Res.mapOk, Res.bind_ok]
        by_cases hn : n = 1
        · simp [hn, Relabelling.value]
        · simp only [hn, if_false]
          exact forRes_map' L.value (fun i => buildSExpr_relabel L h os xss i) _
theorem expandargs_relabel : ∀ (n : Nat) (vs : List Value), expandargs n (L.values vs) =
    (expandargs n vs).mapOk (fun p => (p.1, p.2.map (List.map L.value)))
  | n, [] => by simp [Relabelling.values, expandargs, Res.mapOk]
  | n, v :: vs => by
    simp only [Relabelling.values, expandargs]
    rw [expandvalue_relabel v]
    cases expandvalue v with
    | err e => simp [Res.mapOk]
    | panic => simp [Res.mapOk]
    | ok xs =>
      simp only [Res.mapOk, Res.bind_ok, List.length_map]
      cases resolvecounts n xs.length with
      | err e => simp
      | panic => simp
      | ok n' =>
        simp only [Res.bind_ok]
        rw [expandargs_relabel n' vs]
        cases expandargs n' vs with
        | err e => simp [Res.mapOk]
        | panic => simp [Res.mapOk]
        | ok p => simp [Res.mapOk]
end

theorem expandrule_relabel (r : Rule) : expandrule (L.rule r) = (expandrule r).mapOk (List.map L.rule) := by
  unfold expandrule
  have h1 : (L.rule r).match = L.value r.match := rfl
  have h2 : (L.rule r).result = L.value r.result := rfl
  rw [h1, h2, expandvalue_relabel, expandvalue_relabel]
  cases expandvalue r.match with
  | err e => simp [Res.mapOk]
  | panic => simp [Res.mapOk]
  | ok ms =>
    simp only [Res.mapOk, Res.bind_ok]
    cases expandvalue r.result with
    | err e => simp
    | panic => simp
    | ok rs =>
      simp only [Res.bind_ok, List.length_map]
      cases resolvecounts ms.length rs.length with
      | err e => simp
      | panic => simp
      | ok n =>
        simp only [Res.bind_ok]
        by_cases hn : n = 1
        · simp [hn]
        · simp only [hn, if_false]
          refine forRes_map' L.rule (fun i => ?_) _
          simp only [buildRule, getIdx_map, List.length_map]
          cases getIdx ms (idx i ms.length) <;> simp [Res.mapOk]
          cases getIdx rs (idx i rs.length) <;> simp [Relabelling.rule]

theorem expand_relabel (f : File) : expandAlternates (L.file f) = (expandAlternates f).mapOk L.file := by
  unfold expandAlternates expandrules Relabelling.file
  rw [forRes_map (f := expandrule) L.rule (List.map L.rule) (expandrule_relabel L)]
  cases forRes expandrule f.rules <;> simp [Res.mapOk, List.map_flatten]

end Verif

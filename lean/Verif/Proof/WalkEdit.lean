import Verif.Proof.WalkHeap
/-!
# The renamer visitor: lemmas for C65
-/
namespace Verif.Spec

open Verif

variable {σ : Type}

/-- A variable that is renamed where it stands. -/
def topRenamed (ρ : Str → Str) : Value → Value
  | .var x => .var (ρ x)
  | v => v

/-- The editor the renaming visitor implements. -/
def renameEditor (f : Hdr → Hdr) (ρ : Str → Str) : Editor Unit σ := fun _ n s =>
  (match n with
    | .rule r => .rule { r with «match» := topRenamed ρ r.match, result := topRenamed ρ r.result }
    | .sexpr hd vs => .sexpr (f hd) (vs.map (topRenamed ρ))
    | n => n, s, some ())

theorem own_top {h : Heap} {ρ : Str → Str} {hv : HVal} {v : Value} {L : List Addr} (o : OwnV h hv v L) : OwnV h (renamedVal ρ hv) (topRenamed ρ v) L := by
  cases o with
  | nil => exact .nil
  | expr => exact .expr _
  | var => exact .var _
  | sexpr h1 h2 o => exact .sexpr h1 h2 o

theorem own_tops {h : Heap} {ρ : Str → Str} : ∀ {hvs : List HVal} {vs : List Value} {L : List Addr}, OwnVs h hvs vs L →
    OwnVs h (hvs.map (renamedVal ρ)) (vs.map (topRenamed ρ)) L
  | _, _, _, .nil => .nil
  | _, _, _, .cons o1 o2 => .cons (own_top o1) (own_tops o2)

theorem set_other {h : Heap} {p a : Addr} {c : Cell} (hne : p ≠ a) : (h.set p c)[a]? = h[a]? := List.getElem?_set_ne hne

theorem set_same {h : Heap} {p : Addr} {c : Cell} (hlt : p < h.length) : (h.set p c)[p]? = some c := by
  simp [hlt]

theorem rename_edits (f : Hdr → Hdr) (ρ : Str → Str) : Edits (hinspector (renamer (σ := σ) f ρ)) (renameEditor f ρ) := by
  intro v hn n L h s o hnd
  cases o with
  | nil => exact ⟨h, [], rfl, .nil, hnd, .refl _ _⟩
  | expr e => exact ⟨h, [], rfl, .expr e, hnd, .refl _ _⟩
  | var e => exact ⟨h, [], rfl, .var e, hnd, .refl _ _⟩
  | opcode e => exact ⟨h, [], rfl, .opcode e, hnd, .refl _ _⟩
  | parts e => exact ⟨h, [], rfl, .parts e, hnd, .refl _ _⟩
  | alt e => exact ⟨h, [], rfl, .alt e, hnd, .refl _ _⟩
  | file h1 h2 o => exact ⟨h, _, rfl, .file h1 h2 o, hnd, .refl _ _⟩
  | @rule p r _ o =>
    cases o with
    | @mk m res L M hp om ores =>
      have hlt : p < h.length := mem_lt hp
      have hne : ∀ a ∈ L ++ M, p ≠ a := fun a ha e => (List.nodup_cons.1 hnd).1 (e ▸ ha)
      refine ⟨h.set p (.rule (renamedVal ρ m) r.condition r.block (renamedVal ρ res)), p :: (L ++ M), ?_, ?_, hnd, ?_⟩
      · simp only [hinspector, renamer, hp, renameEditor]
      · simp only [renameEditor]
        refine .rule (.mk (r := { r with «match» := topRenamed ρ r.match, result := topRenamed ρ r.result }) (set_same hlt) ?_ ?_)
        · exact own_top (om.frame fun a ha => set_other (hne a (by simp [ha])))
        · exact own_top (ores.frame fun a ha => set_other (hne a (by simp [ha])))
      · refine ⟨by simp, fun a _ hn => set_other fun e => hn (by simp [e]), fun a ha => .inl ha⟩
  | @sexpr p hd vs _ o =>
    cases o with
    | @sexpr _ _ arr hvs _ M hp harr o =>
      have hpa : p ≠ arr := fun e => (List.nodup_cons.1 hnd).1 (by simp [e])
      have hpM : ∀ a ∈ M, p ≠ a := fun a ha e => (List.nodup_cons.1 hnd).1 (by simp [e, ha])
      have haM : ∀ a ∈ M, arr ≠ a := fun a ha e => (List.nodup_cons.1 (List.nodup_cons.1 hnd).2).1 (e ▸ ha)
      refine ⟨(h.set p (.sexpr (f hd) arr)).set arr (.values (hvs.map (renamedVal ρ))), p :: arr :: M, ?_, ?_, hnd, ?_⟩
      · simp only [hinspector, renamer, hp, harr, renameEditor]
      · simp only [renameEditor]
        refine .sexpr (.sexpr (hd := f hd) (arr := arr) (hvs := hvs.map (renamedVal ρ)) ?_ ?_ (own_tops (o.frame fun a ha => ?_)))
        · rw [set_other (Ne.symm hpa), set_same (mem_lt hp)]
        · exact set_same (by rw [List.length_set]; exact mem_lt harr)
        · rw [set_other (haM a ha), set_other (hpM a ha)]
      · refine ⟨by simp, fun a _ hn => ?_, fun a ha => .inl ha⟩
        rw [set_other fun e => hn (by simp [e]), set_other fun e => hn (by simp [e])]

theorem noNil_child {n c : Node} (h : NoNil n) (hc : c ∈ children n) : NoNil c := fun d => h (.child hc d)

theorem noNil_ne {n : Node} (h : NoNil n) : n ≠ .nil := by rintro rfl; exact h (.self _)

theorem live_leaf (f : Hdr → Hdr) (ρ : Str → Str) (n : Node) (s : σ) (hn : n ≠ .nil) (hc : children n = []) (h1 : ∀ r, n ≠ .rule r) (h2 : ∀ hd vs, n ≠ .sexpr hd vs) :
    ∃ n', Live (renameEditor f ρ) () n s false n' s ∧ n' = withChildren n [] := by
  refine ⟨_, .descend (n1 := n) (w := ()) (ns := []) ?_ hn (by rw [hc]; exact .nil), rfl⟩
  cases n <;> first | rfl | exact absurd rfl (h1 _) | exact absurd rfl (h2 _ _)

theorem live_part (f : Hdr → Hdr) (ρ : Str → Str) (o : OpPart) (s : σ) (hn : NoNil o.toNode) : Live (renameEditor f ρ) () o.toNode s false o.toNode s := by
  obtain ⟨n', l, e⟩ := live_leaf f ρ o.toNode s (noNil_ne hn) (by cases o <;> rfl) (by intro r; cases o <;> (intro q; cases q)) (by intro _ _; cases o <;> (intro q; cases q))
  rw [e] at l
  cases o <;> exact l

theorem live_parts (f : Hdr → Hdr) (ρ : Str → Str) : ∀ (ps : List OpPart) (s : σ), (∀ p ∈ ps, NoNil p.toNode) →
    Lives (renameEditor f ρ) () (ps.map OpPart.toNode) s false (ps.map OpPart.toNode) s
  | [], _, _ => .nil
  | p :: ps, s, h => .cons (live_part f ρ p s (h p List.mem_cons_self)) (live_parts f ρ ps s fun q hq => h q (List.mem_cons_of_mem _ hq))

theorem live_op (f : Hdr → Hdr) (ρ : Str → Str) (o : Op) (s : σ) (hn : NoNil o.toNode) : Live (renameEditor f ρ) () o.toNode s false o.toNode s := by
  cases o with
  | nil => exact absurd rfl (noNil_ne hn)
  | opcode x => exact live_part f ρ (.opcode x) s hn
  | parts ps =>
    have := Live.descend (ed := renameEditor f ρ) (v := ()) (n := .parts ps) (s := s) (n1 := .parts ps) (w := ()) rfl (by simp)
      (live_parts f ρ ps s fun p hp => noNil_child hn (List.mem_map_of_mem hp))
    simp only [withChildren, map_asPart] at this
    exact this

mutual
theorem live_value (f : Hdr → Hdr) (hf : ∀ hd, NoNil hd.op.toNode → NoNil (f hd).op.toNode) (ρ : Str → Str) : ∀ (v : Value) (s : σ), NoNil v.toNode →
    Live (renameEditor f ρ) () (topRenamed ρ v).toNode s false (renamedValue f ρ v).toNode s
  | .nil, _, hn => absurd rfl (noNil_ne hn)
  | .expr e, s, hn => by
    obtain ⟨n', l, e⟩ := live_leaf f ρ (.expr e) s (by simp) rfl (by simp) (by simp)
    rw [e] at l
    exact l
  | .var x, s, hn => by
    obtain ⟨n', l, e⟩ := live_leaf f ρ (.var (ρ x)) s (by simp) rfl (by simp) (by simp)
    rw [e] at l
    exact l
  | .sexpr hd vs, s, hn => by
    have hop : NoNil hd.op.toNode := noNil_child hn (by simp [children, Value.toNode])
    have hvs : ∀ v ∈ vs, NoNil v.toNode := fun v hv => noNil_child hn (by simp only [children, Value.toNode, List.mem_cons, List.mem_map]; exact .inr ⟨v, hv, rfl⟩)
    have := Live.descend (ed := renameEditor f ρ) (v := ()) (n := .sexpr hd vs) (s := s) (n1 := .sexpr (f hd) (vs.map (topRenamed ρ))) (w := ()) rfl (by simp)
      (.cons (live_op f ρ (f hd).op s (hf hd hop)) (live_values f hf ρ vs s hvs))
    rw [withChildren_sexpr _ _ _ _ rfl _ (map_asValue _)] at this
    exact this
theorem live_values (f : Hdr → Hdr) (hf : ∀ hd, NoNil hd.op.toNode → NoNil (f hd).op.toNode) (ρ : Str → Str) : ∀ (vs : List Value) (s : σ), (∀ v ∈ vs, NoNil v.toNode) →
    Lives (renameEditor f ρ) () ((vs.map (topRenamed ρ)).map Value.toNode) s false ((renamedValue.go f ρ vs).map Value.toNode) s
  | [], _, _ => .nil
  | v :: vs, s, hn => .cons (live_value f hf ρ v s (hn v List.mem_cons_self)) (live_values f hf ρ vs s fun w hw => hn w (List.mem_cons_of_mem _ hw))
end

theorem live_rules (f : Hdr → Hdr) (hf : ∀ hd, NoNil hd.op.toNode → NoNil (f hd).op.toNode) (ρ : Str → Str) : ∀ (rs : List Rule) (s : σ), (∀ r ∈ rs, NoNil (.rule r)) →
    Lives (renameEditor f ρ) () (rs.map Node.rule) s false
      ((rs.map fun r => { r with «match» := renamedValue f ρ r.match, result := renamedValue f ρ r.result }).map Node.rule) s
  | [], _, _ => .nil
  | r :: rs, s, hn => by
    refine .cons ?_ (live_rules f hf ρ rs s fun w hw => hn w (List.mem_cons_of_mem _ hw))
    have hr := hn r List.mem_cons_self
    have h1 : NoNil r.match.toNode := noNil_child hr (by simp [children])
    have h2 : NoNil r.result.toNode := noNil_child hr (by simp [children])
    have := Live.descend (ed := renameEditor f ρ) (v := ()) (n := .rule r) (s := s)
      (n1 := .rule { r with «match» := topRenamed ρ r.match, result := topRenamed ρ r.result }) (w := ()) rfl (by simp)
      (.cons (live_value f hf ρ r.match s h1) (.cons (live_value f hf ρ r.result s h2) .nil))
    simp only [withChildren, asValue_toNode] at this
    exact this

theorem live_file (f : Hdr → Hdr) (hf : ∀ hd, NoNil hd.op.toNode → NoNil (f hd).op.toNode) (ρ : Str → Str) (file : File) (s : σ) (hn : NoNil (.file file)) :
    Live (renameEditor f ρ) () (.file file) s false (.file (renamedFile f ρ file)) s := by
  have := Live.descend (ed := renameEditor f ρ) (v := ()) (n := .file file) (s := s) (n1 := .file file) (w := ()) rfl (by simp)
      (live_rules f hf ρ file.rules s fun r hr => noNil_child hn (List.mem_map_of_mem hr))
  have e : ∀ rs : List Rule, (rs.map Node.rule).filterMap asRule = rs := by
    intro rs
    induction rs with
    | nil => rfl
    | cons r rs ih => simp [asRule, ih]
  simp only [withChildren, e] at this
  exact this

end Verif.Spec

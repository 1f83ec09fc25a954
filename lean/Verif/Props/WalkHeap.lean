import Verif.Proof.WalkEdit
import Verif.Proof.WalkCurrent
import Verif.Props.Walk
/-!
# C65: walking over an AST that is modified meanwhile
-/
namespace Verif.Props

open Verif Verif.Spec

variable {V σ : Type}

/-- C65.  A visitor that modifies the node it is given may be used with `Walk` on any AST without sharing: the walk goes on with the children of the *modified*
node, it ends with the tree one gets by editing each node before its children, and no object outside the tree is modified; the tree then consists of its old
objects and new ones. -/
theorem C65_edits (vis : HVisiting V σ) (ed : Editor V σ) (E : Edits vis ed) (v : V) (hn : HNode) (n : Node) (L : List Addr) (h : Heap) (s : σ)
    (o : OwnN h hn n L) (hnd : L.Nodup) (panicked : Bool) (n' : Node) (s' : σ) (l : Live ed v n s panicked n' s') :
    ∃ fuel0 h' L', (∀ fuel, fuel0 ≤ fuel → hwalk vis fuel v hn (h, s) = some (ending panicked (h', s'))) ∧ OwnN h' hn n' L' ∧ L'.Nodup ∧ Within h L h' L' := by
  obtain ⟨fuel0, e⟩ := live_fuel l
  have := hwalk_sim E fuel0 v hn n L h s o hnd
  rw [e] at this
  obtain ⟨h', L', e1, o1, nd1, w1⟩ := this
  refine ⟨fuel0, h', L', fun fuel hf => ?_, o1, nd1, w1⟩
  exact hwalk_mono hf v hn (h, s) e1

/-- C65.  Conversely, a walk that returns has done just this; so a walk with such a visitor returns if and only if editing each node before its children comes to an end. -/
theorem C65_edits_only (vis : HVisiting V σ) (ed : Editor V σ) (E : Edits vis ed) (v : V) (hn : HNode) (n : Node) (L : List Addr) (h : Heap) (s : σ)
    (o : OwnN h hn n L) (hnd : L.Nodup) (fuel : Nat) (out : Out (Heap × σ)) (e : hwalk vis fuel v hn (h, s) = some out) :
    ∃ panicked n' s' h' L', Live ed v n s panicked n' s' ∧ out = ending panicked (h', s') ∧ OwnN h' hn n' L' ∧ L'.Nodup ∧ Within h L h' L' := by
  have := hwalk_sim E fuel v hn n L h s o hnd
  generalize hr : liveWalk ed fuel v n s = r at this
  match r with
  | none => have k : hwalk vis fuel v hn (h, s) = none := this; rw [k] at e; cases e
  | some (b, n', s') =>
    obtain ⟨h', L', e1, o1, nd1, w1⟩ := this
    rw [e1] at e
    cases e
    exact ⟨b, n', s', h', L', liveWalk_rel ed _ _ _ _ _ _ _ hr, rfl, o1, nd1, w1⟩

/-- C65.  A visitor that only reads does not notice sharing: on a heap in which a node represents a tree, however many parts of it are shared, `Walk` returns, modifies nothing,
and calls the visitor exactly as on the tree (C01–C04). -/
theorem C65_reads (vis : HVisiting V σ) (vis' : Visiting V σ) (h : Heap) (R : Reads vis vis' h) (hn : HNode) (n : Node) (r : RepN h hn n) :
    ∃ fuel0, ∀ fuel, fuel0 ≤ fuel → ∀ (v : V) (s : σ), hwalk vis fuel v hn (h, s) =
      some (match walk vis' v n s with | .done s' => .done (h, s') | .panic s' => .panic (h, s')) := by
  obtain ⟨fuel0, e⟩ := walk_reads R r
  refine ⟨fuel0, fun fuel hf v s => ?_⟩
  rw [e fuel hf v s]
  cases walk vis' v n s <;> rfl

/-- C65.  For example a callback for `Inspect` that changes the fields of every S-expression it is given, and renames variables where they stand (in the rule or S-expression it
is given), changes exactly these everywhere in a file without nil and without sharing, and nothing outside of it. -/
theorem C65_rename (f : Hdr → Hdr) (hf : ∀ hd, NoNil hd.op.toNode → NoNil (f hd).op.toNode) (ρ : Str → Str) (p : Addr) (file : File) (L : List Addr) (h : Heap) (s : σ)
    (o : OwnN h (.file p) (.file file) L) (hnd : L.Nodup) (hn : NoNil (.file file)) :
    ∃ fuel0 h' L', (∀ fuel, fuel0 ≤ fuel → hinspect fuel (.file p) (renamer f ρ) (h, s) = some (.done (h', s))) ∧
      OwnN h' (.file p) (.file (renamedFile f ρ file)) L' ∧ L'.Nodup ∧ Within h L h' L' :=
  C65_edits _ _ (rename_edits f ρ) () (.file p) (.file file) L h s o hnd false _ s (live_file f hf ρ file s hn)

/-- C65.  For every visitor, whatever it does to memory: every node it is given (but the first) is read at that moment from a field of a node it was given before, or from the
array of a slice: match, result, opcode and the first element as they are at that moment, each further element from the array from which the one before it was read.
So changes a visitor makes ahead of the walk are seen, but an argument list that is replaced while it is being walked over is not. -/
theorem C65_current (vis : HVisiting V σ) (fuel : Nat) (v : V) (hn : HNode) (h : Heap) (s : σ) (out : Out (Heap × σ)) (e : hwalk vis fuel v hn (h, s) = some out) :
    ∃ (h' : Heap) (s' : σ) (rest : List (Heap × HNode)),
      (out = .done (h', s') ∧ hwalk (logged vis) fuel v hn (h, (s, [])) = some (.done (h', (s', (h, hn) :: rest))) ∨
        out = .panic (h', s') ∧ hwalk (logged vis) fuel v hn (h, (s, [])) = some (.panic (h', (s', (h, hn) :: rest)))) ∧
      ∀ before now x later, rest = before ++ (now, x) :: later → Current ((h, hn) :: before) now x := by
  have k := hwalk_logged vis fuel v hn (h, (s, []))
  have e' : hwalk vis fuel v hn (dropLog (h, (s, []))) = some out := e
  rw [e'] at k
  generalize hq : hwalk (logged vis) fuel v hn (h, (s, [])) = q at k
  cases q with
  | none => cases k
  | some q =>
    obtain ⟨rest, e1, c⟩ := hwalk_adds vis fuel v hn _ q hq
    simp only [Option.map_some, Option.some.injEq] at k
    subst k
    match q with
    | .done (h', (s', log)) =>
      simp only [finalState, List.nil_append] at e1
      subst e1
      exact ⟨h', s', rest, .inl ⟨rfl, rfl⟩, fun before now x later hb => c before now x later hb⟩
    | .panic (h', (s', log)) =>
      simp only [finalState, List.nil_append] at e1
      subst e1
      exact ⟨h', s', rest, .inr ⟨rfl, rfl⟩, fun before now x later hb => c before now x later hb⟩

/-! ## Examples -/

/-- `(A x (B))`, as a rule `(A x (B)) => x` in a file, at the addresses 0 to 6 -/
def demoHeap : Heap :=
  [ .sexpr { op := .opcode ['A'] } 1, .values [.var ['x'], .sexpr 2], .sexpr { op := .opcode ['B'] } 3, .values [],
    .rule (.sexpr 0) none [] (.var ['x']), .rules [4], .file 5 ]

def demoFile : File := ⟨[{ «match» := .sexpr { op := .opcode ['A'] } [.var ['x'], .sexpr { op := .opcode ['B'] } []], result := .var ['x'] }]⟩

theorem demo_own : OwnN demoHeap (.file 6) (.file demoFile) [6, 5, 4, 0, 1, 2, 3] := by
  refine .file (arr := 5) (ps := [4]) (L := [4, 0, 1, 2, 3]) rfl rfl ?_
  refine .cons (L := [4, 0, 1, 2, 3]) (M := []) ?_ .nil
  refine .mk (m := .sexpr 0) (res := .var ['x']) (L := [0, 1, 2, 3]) (M := []) rfl ?_ (.var _)
  refine .sexpr (arr := 1) (hvs := [.var ['x'], .sexpr 2]) (L := [2, 3]) rfl rfl ?_
  refine .cons (L := []) (M := [2, 3]) (.var _) (.cons (L := [2, 3]) (M := []) ?_ .nil)
  exact .sexpr (arr := 3) (hvs := []) (L := []) rfl rfl .nil

/-- the hypotheses of `C65_rename` hold of it, for a callback that doubles names of opcodes and variables; the result -/
example : [6, 5, 4, 0, 1, 2, 3].Nodup ∧ NoNil (.file demoFile) ∧
    renamedFile (fun hd => match hd.op with | .opcode o => { hd with op := .opcode (o ++ o) } | _ => hd) (fun x => x ++ x) demoFile =
      ⟨[{ «match» := .sexpr { op := .opcode ['A', 'A'] } [.var ['x', 'x'], .sexpr { op := .opcode ['B', 'B'] } []], result := .var ['x', 'x'] }]⟩ ∧
    (∀ hd : Hdr, NoNil hd.op.toNode → NoNil (match hd.op with | .opcode o => { hd with op := .opcode (o ++ o) } | _ => hd : Hdr).op.toNode) := by
  refine ⟨by decide, (noNil_iff _).2 (by decide), rfl, ?_⟩
  intro hd hn
  cases e : hd.op with
  | opcode o =>
    intro d
    cases d with
    | child hc _ => cases hc
  | nil => rw [e] at hn; simp only; rw [e]; exact hn
  | parts ps => rw [e] at hn; simp only; rw [e]; exact hn

/-- Without the assumption that nothing is shared the claim is false: an S-expression that is both the match and the result of a rule is edited twice. -/
example : (match hinspect 9 (.rule 2) (renamer (fun hd => match hd.op with | .opcode o => { hd with op := .opcode (o ++ o) } | _ => hd) id)
      ([.sexpr { op := .opcode ['A'] } 1, .values [], .rule (.sexpr 0) none [] (.sexpr 0)], ()) with
    | some (.done st) => (match st.1[0]? with | some (Cell.sexpr hd _) => (match hd.op with | .opcode o => o | _ => []) | _ => [])
    | _ => []) = ['A', 'A', 'A', 'A'] := rfl

/-- A visitor that always adds something below the node it is given never comes to an end. -/
def growing : Editor Unit Unit := fun _ n s =>
  (match n with | .sexpr hd _ => .sexpr hd [.sexpr { op := .opcode ['A'] } []] | n => n, s, some ())

theorem growing_none : ∀ (fuel : Nat) (vs : List Value) (s : Unit), liveWalk growing fuel () (.sexpr { op := .opcode ['A'] } vs) s = none
  | 0, _, _ => rfl
  | 1, _, _ => rfl
  | fuel + 2, vs, s => by
    have ih := growing_none (fuel + 1) [] s
    rw [liveWalk]
    simp only [growing, isNil, Bool.false_eq_true, if_false, children]
    have e : liveList (liveWalk growing (fuel + 1) ()) ((Op.opcode ['A']).toNode :: List.map Value.toNode [Value.sexpr { op := Op.opcode ['A'] } []]) s = none := by
      have e1 : liveWalk growing (fuel + 1) () (.opcode ['A']) s = some (false, .opcode ['A'], s) := rfl
      simp only [List.map_cons, List.map_nil, Op.toNode, Value.toNode, liveList, e1, ih]
    rw [e]

example : ∀ vs s panicked n' s', ¬ Live growing () (.sexpr { op := .opcode ['A'] } vs) s panicked n' s' := by
  intro vs s panicked n' s' l
  obtain ⟨fuel, e⟩ := live_fuel l
  rw [growing_none] at e
  cases e

/-- a visitor that replaces the result `x` of the rule by `y` when it is given the opcode of the match: `y` is visited -/
example : (hinspect 9 (.rule 2) (fun n (st : Heap × List Str) => match n with
      | .opcode _ => ((st.1.set 2 (.rule (.sexpr 0) none [] (.var ['y'])), st.2), true)
      | .var x => ((st.1, st.2 ++ [x]), true)
      | _ => (st, true))
      ([.sexpr { op := .opcode ['A'] } 1, .values [], .rule (.sexpr 0) none [] (.var ['x'])], [])).map (fun o => match o with | .done st => st.2 | .panic _ => []) = some [['y']] := rfl

/-- a visitor that counts variables reads only -/
example (h : Heap) : Reads (V := Unit) (σ := Nat) ⟨fun _ n st => (match n with | .var _ => (st.1, st.2 + 1) | _ => st, some ())⟩
    ⟨fun _ n s => (match n with | .var _ => s + 1 | _ => s, some ())⟩ h := by
  intro v hn n s r
  cases r <;> rfl

end Verif.Props

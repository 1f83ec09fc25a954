import Verif.Proof.Concurrent
import Verif.Proof.ExpandExec
import Verif.Props.ExpandHeap
/-!
# Property C62: goroutines that expand files do not disturb each other
-/
namespace Verif.Props

open Verif Verif.Spec

/-- The programs are those of C07: run alone, the program of `ExpandAlternates` does the same. -/
theorem C62_alone (fuel : Nat) (p : Addr) : (pexpandAlternates fuel p).exec = hexpandAlternates fuel p := exec_expandAlternates fuel p

/-- C62.  Goroutines that expand different files, and goroutines that look at what is not one of these `ast.File` structs, make no data race, even if the files share rules, S-expressions or
argument arrays. -/
theorem C62_no_race {α : Type} (h : Heap) (fuel : Nat) (jobs : List (Work α)) (hL : Legal h fuel jobs) (tr : List (Nat × Access)) (h' : Heap) (ts : List (Prog (Option α)))
    (hR : Run h (jobs.map (Work.prog fuel)) tr h' ts) : ¬ Race tr := fine_no_race (start_fine hL) hR

/-- C62.  A goroutine that has finished has returned what it returns when it runs alone, and its file is the expanded one if expansion is successful, else the old one; this stays so
whatever the others do. -/
theorem C62_expanded {α : Type} (h : Heap) (fuel : Nat) (jobs : List (Work α)) (hL : Legal h fuel jobs) (tr : List (Nat × Access)) (h' : Heap) (ts : List (Prog (Option α)))
    (hR : Run h (jobs.map (Work.prog fuel)) tr h' ts) (i : Nat) (p : Addr) (ps : List Addr) (f : File) (hi : jobs[i]? = some (.expand p)) (hf : RepFile h p ps f)
    (r : Res (Option α)) (hr : ts[i]? = some (.ret r)) :
    match expandAlternates f with
    | .ok g => r = .ok none ∧ ExpandedTo h' p ps f g
    | .err e => r = .err e ∧ RepFile h' p ps f
    | .panic => r = .panic ∧ RepFile h' p ps f := by
  obtain ⟨o, hF, -⟩ := fine_run (start_fine hL) hR
  obtain ⟨-, hq⟩ := hF.ok i _ hr
  obtain ⟨r', hO, hr'⟩ := hq.1 p ps f hi hf
  have hl : ps.length = f.rules.length := by obtain ⟨arr, -, -, h3⟩ := hf; exact (relList_repRules.2 h3).length_eq
  unfold Outcome at hO
  revert hO
  cases expandAlternates f with
  | ok g =>
    rintro ⟨rfl, hd⟩
    exact ⟨hr', vDone_to view_le hl hd⟩
  | err e =>
    rintro ⟨rfl, hd⟩
    exact ⟨hr', vFile_to view_le hd⟩
  | panic =>
    rintro ⟨rfl, hd⟩
    exact ⟨hr', vFile_to view_le hd⟩

/-- C62.  At any time, each file is the old one or the expanded one: nobody ever sees anything in between. -/
theorem C62_never_between {α : Type} (h : Heap) (fuel : Nat) (jobs : List (Work α)) (hL : Legal h fuel jobs) (tr : List (Nat × Access)) (h' : Heap) (ts : List (Prog (Option α)))
    (hR : Run h (jobs.map (Work.prog fuel)) tr h' ts) (p : Addr) (ps : List Addr) (f : File) (hi : Expanded jobs p) (hf : RepFile h p ps f) :
    RepFile h' p ps f ∨ ∃ g, expandAlternates f = .ok g ∧ ExpandedTo h' p ps f g := by
  obtain ⟨o, hF, -, -, -, hlen⟩ := fine_run (start_fine hL) hR
  obtain ⟨i, hi'⟩ := List.getElem?_of_mem hi
  have hil : i < ts.length := by rw [hlen, List.length_map]; exact (List.getElem?_eq_some_iff.1 hi').1
  have hl : ps.length = f.rules.length := by obtain ⟨arr, -, -, h3⟩ := hf; exact (relList_repRules.2 h3).length_eq
  have hI := (hF.ok i _ (List.getElem?_eq_getElem hil)).inv p ps f hi' hf
  rcases hI with hI | ⟨g, hg, hI⟩
  · exact .inl (vFile_to view_le hI)
  · exact .inr ⟨g, hg, vDone_to view_le hl hI⟩

/-- C62.  At any time, all that was there is as it was, but for the files being expanded. -/
theorem C62_others_unchanged {α : Type} (h : Heap) (fuel : Nat) (jobs : List (Work α)) (hL : Legal h fuel jobs) (tr : List (Nat × Access)) (h' : Heap) (ts : List (Prog (Option α)))
    (hR : Run h (jobs.map (Work.prog fuel)) tr h' ts) (a : Addr) (ha : a < h.length) (hn : ¬ Expanded jobs a) : h'[a]? = h[a]? := by
  obtain ⟨o, -, -, -, hk, -⟩ := fine_run (start_fine hL) hR
  exact hk a (owners_shared ha hn)

/-- C62.  A goroutine that looks at something sees what it sees when nothing else is going on. -/
theorem C62_looks {α : Type} (h : Heap) (fuel : Nat) (jobs : List (Work α)) (hL : Legal h fuel jobs) (tr : List (Nat × Access)) (h' : Heap) (ts : List (Prog (Option α)))
    (hR : Run h (jobs.map (Work.prog fuel)) tr h' ts) (i : Nat) (P : Prog α) (hi : jobs[i]? = some (.look P))
    (r : Res (Option α)) (hr : ts[i]? = some (.ret r)) : ∃ s, P.exec h = some (s, h) ∧ r = (s >>= fun a => .ok (some a)) := by
  obtain ⟨o, hF, -⟩ := fine_run (start_fine hL) hR
  obtain ⟨-, hq⟩ := hF.ok i _ hr
  obtain ⟨s, hs⟩ := hL.looks P (List.mem_of_getElem? hi)
  refine ⟨s, ?_, hq.2 P s hi hs⟩
  clear hq hi
  induction hs with
  | ret => rfl
  | read h1 _ _ ih => simp only [Prog.exec, h1]; exact ih

/-- C62.  So, goroutines that read rules (as those that print, walk or generate do) while the files with these rules are expanded read what is there. -/
theorem C62_reads_rule (h : Heap) (fuel : Nat) (jobs : List (Work Rule)) (hx : ∀ p, Expanded jobs p → ∃ ps f, RepFile h p ps f ∧ fileDepth f ≤ fuel)
    (hd : ∀ (i j : Nat) (p : Addr), jobs[i]? = some (Work.expand p) → jobs[j]? = some (Work.expand p) → i = j)
    (hread : ∀ P, Work.look P ∈ jobs → ∃ n p r, P = readRule n p ∧ RepRule h p r ∧ depth r.match ≤ n ∧ depth r.result ≤ n) :
    Legal h fuel jobs ∧ ∀ (tr : List (Nat × Access)) (h' : Heap) (ts : List (Prog (Option Rule))), Run h (jobs.map (Work.prog fuel)) tr h' ts →
      ∀ (i n : Nat) (p : Addr) (r : Rule) (x : Res (Option Rule)), jobs[i]? = some (.look (readRule n p)) → RepRule h p r → depth r.match ≤ n → depth r.result ≤ n →
        ts[i]? = some (.ret x) → x = .ok (some r) := by
  have hf : ∀ a, Expanded jobs a → ∃ x, h[a]? = some (.file x) := by
    intro a ha
    obtain ⟨ps, f, ⟨arr, h1, -⟩, -⟩ := hx a ha
    exact ⟨arr, h1⟩
  have hL : Legal h fuel jobs := by
    refine ⟨hx, hd, ?_⟩
    intro P hP
    obtain ⟨n, p, r, rfl, hr, h1, h2⟩ := hread P hP
    exact ⟨_, looks_rule hf hr n h1 h2⟩
  refine ⟨hL, ?_⟩
  intro tr h' ts hR i n p r x hi hr h1 h2 hx'
  obtain ⟨o, hF, -⟩ := fine_run (start_fine hL) hR
  obtain ⟨-, hq⟩ := hF.ok i _ hx'
  exact hq.2 _ _ hi (looks_rule hf hr n h1 h2)

/-- C62.  No goroutine ever gets stuck: it has finished, or it can go on. -/
theorem C62_progress {α : Type} (h : Heap) (fuel : Nat) (jobs : List (Work α)) (hL : Legal h fuel jobs) (tr : List (Nat × Access)) (h' : Heap) (ts : List (Prog (Option α)))
    (hR : Run h (jobs.map (Work.prog fuel)) tr h' ts) (i : Nat) (hi : i < jobs.length) :
    ∃ P, ts[i]? = some P ∧ ((∃ r, P = .ret r) ∨ ∃ e h'' P', Step h' P e h'' P') := by
  obtain ⟨o, hF, -, -, -, hlen⟩ := fine_run (start_fine hL) hR
  have hil : i < ts.length := by rw [hlen, List.length_map]; exact hi
  exact ⟨ts[i], List.getElem?_eq_getElem hil, fine_progress hF (List.getElem?_eq_getElem hil)⟩

/-- C62.  No schedule goes on for ever. -/
theorem C62_finite {α : Type} (ts : Nat → List (Prog α)) : ∃ n, ¬ ∃ (h h' : Heap) (i : Nat) (P P' : Prog α) (e : Access),
    (ts n)[i]? = some P ∧ Step h P e h' P' ∧ ts (n + 1) = (ts n).set i P' := by
  refine Classical.byContradiction fun hno => ?_
  have hall : ∀ n, Lesses (ts (n + 1)) (ts n) := by
    intro n
    refine Classical.byContradiction fun hn => hno ⟨n, ?_⟩
    rintro ⟨h, h', i, P, P', e, h1, h2, h3⟩
    exact hn ⟨i, P, P', h1, ⟨h, e, h', h2⟩, h3⟩
  have : ∀ (t : List (Prog α)), ∀ n, ts n ≠ t := by
    intro t
    induction t using lesses_wf.induction with
    | _ t ih =>
      intro n e
      exact ih (ts (n + 1)) (e ▸ hall n) (n + 1) rfl
  exact this _ 0 rfl

/-! ## Examples -/

/-- Do steps of the goroutines in this order, passing over those that have finished. -/
def play {α : Type} : List Nat → List (Nat × Access) → Heap → List (Prog α) → Option (List (Nat × Access) × Heap × List (Prog α))
  | [], tr, h, ts => some (tr, h, ts)
  | i :: is, tr, h, ts =>
    match ts[i]? with
    | some (.read a k) =>
      match h[a]? with
      | some c => play is (tr ++ [(i, .read a)]) h (ts.set i (k c))
      | none => none
    | some (.alloc c k) => play is (tr ++ [(i, .alloc h.length)]) (h ++ [c]) (ts.set i (k h.length))
    | some (.write a c k) => if a < h.length then play is (tr ++ [(i, .write a)]) (h.set a c) (ts.set i k) else none
    | some (.ret _) => play is tr h ts
    | _ => none

theorem play_run {α : Type} {h0 : Heap} {ts0 : List (Prog α)} (is : List Nat) {tr : List (Nat × Access)} {h : Heap} {ts : List (Prog α)} {tr' : List (Nat × Access)} {h' : Heap}
    {ts' : List (Prog α)} (hp : play is tr h ts = some (tr', h', ts')) (hR : Run h0 ts0 tr h ts) : Run h0 ts0 tr' h' ts' := by
  induction is generalizing tr h ts with
  | nil => simp only [play, Option.some.injEq, Prod.mk.injEq] at hp; obtain ⟨rfl, rfl, rfl⟩ := hp; exact hR
  | cons i is ih =>
    simp only [play] at hp
    split at hp
    · rename_i a k hi
      split at hp
      · rename_i c hc
        exact ih hp (.step hR hi (.read hc))
      · cases hp
    · rename_i c k hi
      exact ih hp (.step hR hi .alloc)
    · rename_i a c k hi
      split at hp
      · rename_i ha
        exact ih hp (.step hR hi (.write ha))
      · cases hp
    · exact ih hp hR
    · cases hp

/-- Two files (cells 0 and 8) that share a rule with alternations, which a third goroutine reads. -/
def commonHeap : Heap := exampleHeap ++ [.file 9, .rules [2]]

def commonWork : List (Work Rule) := [.expand 0, .expand 8, .look (readRule 3 2)]

/-- An S-expression and a rule of `exampleHeap`. -/
def commonN : Value := .sexpr { op := .opcode ['N'] } [.var ['y']]
def commonRule : Rule := { «match» := .sexpr { op := addAlt } [commonN, .var ['x']], result := .var ['x'] }

theorem common_rule : RepRule commonHeap 2 commonRule :=
  ⟨.sexpr 4, .var ['x'], rfl, .sexpr rfl rfl (.cons (.sexpr rfl rfl (.cons (.var _) .nil)) (.cons (.var _) .nil)), .var _⟩

example : Legal commonHeap 3 commonWork := by
  refine (C62_reads_rule commonHeap 3 commonWork ?_ ?_ ?_).1
  · intro p hp
    simp only [Expanded, commonWork, List.mem_cons, Work.expand.injEq, List.mem_singleton, reduceCtorEq, or_false, List.not_mem_nil] at hp
    rcases hp with rfl | rfl
    · exact ⟨[2, 3], ⟨[commonRule, { «match» := commonN, result := .var ['y'] }]⟩,
        ⟨1, rfl, rfl, .cons common_rule (.cons ⟨.sexpr 6, .var ['y'], rfl, .sexpr rfl rfl (.cons (.var _) .nil), .var _⟩ .nil)⟩, by decide⟩
    · exact ⟨[2], ⟨[commonRule]⟩, ⟨9, rfl, rfl, .cons common_rule .nil⟩, by decide⟩
  · intro i j p hi hj
    match i, j with
    | 0, 0 => rfl
    | 1, 1 => rfl
    | 0, 1 => simp [commonWork] at hi hj; rw [← hi] at hj; cases hj
    | 1, 0 => simp [commonWork] at hi hj; rw [← hi] at hj; cases hj
    | 2, _ => simp [commonWork] at hi
    | _, 2 => simp [commonWork] at hj
    | i + 3, _ => simp [commonWork] at hi
    | _, j + 3 => simp [commonWork] at hj
  · intro P hP
    simp only [commonWork, List.mem_cons, reduceCtorEq, Work.look.injEq, List.mem_singleton, false_or, List.not_mem_nil, or_false] at hP
    exact ⟨3, 2, commonRule, hP, common_rule, by decide, by decide⟩

/-- One goroutine step after another, round after round. -/
def roundRobin (n rounds : Nat) : List Nat := (List.replicate rounds (List.range n)).flatten

/-- Has a goroutine finished? -/
def finished {α : Type} : Prog α → Bool
  | .ret _ => true
  | _ => false

/-- a run in which the goroutines take turns -/
example : (play (roundRobin 3 5) [] commonHeap (commonWork.map (Work.prog 3))).map (fun x => x.1) =
    some [(0, .read 0), (1, .read 8), (2, .read 2), (0, .read 1), (1, .read 9), (2, .read 4), (0, .read 2), (1, .read 2), (2, .read 5), (0, .read 4), (1, .read 4), (2, .read 6), (0, .read 5),
      (1, .read 5), (2, .read 7)] := by decide

/-- The pointers of the rules of a file. -/
def rulesAt (h : Heap) (p : Addr) : List Addr :=
  match h[p]? with
  | some (.file arr) =>
    match h[arr]? with
    | some (.rules ps) => ps
    | _ => []
  | _ => []

/-- and, going on, at the end all have finished, and the files have three and two rules -/
example : (play (roundRobin 3 30) [] commonHeap (commonWork.map (Work.prog 3))).map (fun x => (x.2.2.map finished, rulesAt x.2.1 0, rulesAt x.2.1 8)) =
    some ([true, true, true], [18, 20, 3], [19, 21]) := by decide +kernel

/-- Two goroutines that expand the same file: there is a race. -/
example : ∃ tr h' ts, Run exampleHeap ([Work.expand 0, Work.expand 0].map (Work.prog (α := Rule) 3)) tr h' ts ∧ Race tr := by
  have hs : (play (roundRobin 2 40) [] exampleHeap ([Work.expand 0, Work.expand 0].map (Work.prog (α := Rule) 3))).map (fun x => decide ((0, .write 0) ∈ x.1 ∧ (1, .read 0) ∈ x.1)) = some true := by
    decide +kernel
  revert hs
  generalize hx : play (roundRobin 2 40) [] exampleHeap ([Work.expand 0, Work.expand 0].map (Work.prog (α := Rule) 3)) = x
  intro hs
  cases x with
  | none => cases hs
  | some x =>
    obtain ⟨tr, h', ts⟩ := x
    simp only [Option.map_some, Option.some.injEq, decide_eq_true_eq] at hs
    exact ⟨tr, h', ts, play_run _ hx .start, 0, 1, _, _, hs.1, hs.2, by decide, rfl, trivial⟩

end Verif.Props

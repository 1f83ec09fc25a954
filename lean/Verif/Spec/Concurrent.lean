import Verif.Model.ExpandProg
import Verif.Spec.Heap
import Verif.Spec.Expand
/-!
# Goroutines on one heap

Any number of programs run on one heap, in steps, in any order.  A trace records who did what.  There is no synchronisation between the goroutines, so, by the memory model of Go, a trace
has a data race as soon as two different goroutines accessed one cell, at whatever times, and one of them wrote it (or allocated it).
-/
namespace Verif.Spec

open Verif

/-- One access to the heap. -/
inductive Access where
  | read (a : Addr)
  | write (a : Addr)
  | alloc (a : Addr)
  deriving DecidableEq, Repr

/-- The cell. -/
def Access.addr : Access → Addr
  | .read a | .write a | .alloc a => a

/-- Is the cell changed? -/
def Access.changes : Access → Prop
  | .read _ => False
  | .write _ | .alloc _ => True

/-- One step of a program. -/
inductive Step {α : Type} : Heap → Prog α → Access → Heap → Prog α → Prop
  | read {h a k c} : h[a]? = some c → Step h (.read a k) (.read a) h (k c)
  | alloc {h c k} : Step h (.alloc c k) (.alloc h.length) (h ++ [c]) (k h.length)
  | write {h a c k} : a < h.length → Step h (.write a c k) (.write a) (h.set a c) k

/-- `Run h ts tr h' ts'`: the goroutines `ts`, started on the heap `h`, can make the accesses `tr`, after which the heap is `h'` and what is left of the goroutines is `ts'`. -/
inductive Run {α : Type} (h : Heap) (ts : List (Prog α)) : List (Nat × Access) → Heap → List (Prog α) → Prop
  | start : Run h ts [] h ts
  | step {tr h₁ ts₁ i P e h₂ P'} : Run h ts tr h₁ ts₁ → ts₁[i]? = some P → Step h₁ P e h₂ P' → Run h ts (tr ++ [(i, e)]) h₂ (ts₁.set i P')

/-- Two goroutines accessed the same cell, and one of them changed it. -/
def Race (tr : List (Nat × Access)) : Prop :=
  ∃ i j e e', (i, e) ∈ tr ∧ (j, e') ∈ tr ∧ i ≠ j ∧ e.addr = e'.addr ∧ e.changes

/-- What a goroutine does: expand a file, or look at something. -/
inductive Work (α : Type) where
  | expand (file : Addr)
  | look (P : Prog α)

/-- The program of a goroutine.  One that expands returns `none`, one that looks returns what it saw. -/
def Work.prog {α : Type} (fuel : Nat) : Work α → Prog (Option α)
  | .expand p => (pexpandAlternates fuel p).bind fun _ => .ret (.ok none)
  | .look P => P.bind fun a => .ret (.ok (some a))

/-- `Looks h files P r`: on the heap `h`, the program `P` only reads, and no cell in `files`, and returns `r`. -/
inductive Looks {α : Type} (h : Heap) (files : Addr → Prop) : Prog α → Res α → Prop
  | ret {r} : Looks h files (.ret r) r
  | read {a k c r} : h[a]? = some c → ¬ files a → Looks h files (k c) r → Looks h files (.read a k) r

/-- Read a list, given how to read a value. -/
def readEach (rv : HVal → Prog Value) : List HVal → Prog (List Value)
  | [] => .ret (.ok [])
  | v :: vs => (rv v).bind fun x => (readEach rv vs).bind fun xs => .ret (.ok (x :: xs))

/-- Read a value with all that is in it, as `Walk`, the printer and the SMT generator do.  The number bounds the depth. -/
def readValue : Nat → HVal → Prog Value
  | 0, _ => .stuck
  | _ + 1, .nil => .ret (.ok .nil)
  | _ + 1, .expr e => .ret (.ok (.expr e))
  | _ + 1, .var x => .ret (.ok (.var x))
  | n + 1, .sexpr p => .read p fun
    | .sexpr hd arr => .read arr fun
      | .values vs => (readEach (readValue n) vs).bind fun args => .ret (.ok (.sexpr hd args))
      | _ => .stuck
    | _ => .stuck

/-- Read a rule with all that is in it. -/
def readRule (n : Nat) (p : Addr) : Prog Rule := .read p fun
  | .rule m cond block res => (readValue n m).bind fun x => (readValue n res).bind fun y => .ret (.ok { «match» := x, condition := cond, block := block, result := y })
  | _ => .stuck

/-- Some goroutine expands the file `p`. -/
def Expanded {α : Type} (jobs : List (Work α)) (p : Addr) : Prop := Work.expand p ∈ jobs

/-- In the heap `h`, the file `p`, whose rules were `f` at the pointers `ps`, is expanded: its rules are `g`; the pointers come in groups, one per old rule, in order, and the group of a rule without
alternations is the old pointer. -/
def ExpandedTo (h : Heap) (p : Addr) (ps : List Addr) (f g : File) : Prop :=
  ∃ groups : List (List Addr), RepFile h p groups.flatten g ∧ groups.length = ps.length ∧
    ∀ (j : Nat) (r : Rule), f.rules[j]? = some r → ∃ grp q, groups[j]? = some grp ∧ ps[j]? = some q ∧
      RepRules h grp ((List.range (count (ruleSizes r))).map fun i => pickRule i r) ∧ (ruleSizes r = [] → grp = [q])

/-- The goroutines expand different files; those that look at something do not look at these `ast.File` structs (but maybe at their rules). -/
structure Legal {α : Type} (h : Heap) (fuel : Nat) (jobs : List (Work α)) : Prop where
  /-- what is expanded are files; `fuel` is as large as needed -/
  files : ∀ p, Expanded jobs p → ∃ ps f, RepFile h p ps f ∧ fileDepth f ≤ fuel
  /-- different files -/
  distinct : ∀ (i j : Nat) (p : Addr), jobs[i]? = some (Work.expand p) → jobs[j]? = some (Work.expand p) → i = j
  looks : ∀ P, Work.look P ∈ jobs → ∃ r, Looks h (Expanded jobs) P r

end Verif.Spec

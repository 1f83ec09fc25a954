import Verif.Model.ExpandHeap
/-!
# Model of pass/alt.go as programs for a shared heap

`Model/ExpandHeap.lean` runs a call of `ExpandAlternates` from start to end.  Here the same functions are programs, which access the heap one cell at a time, so that
several goroutines can run on one heap (`Spec/Concurrent.lean`).  The simplifications are those of `Model/ExpandHeap.lean`; in addition, a cell is read or written in
one step (where there is no race, goroutines cannot tell).
-/
namespace Verif

/-- A program: what it does next.  `stuck` is a program that does not go on. (the functions of pass/alt.go:10-125, one access to memory after the other) -/
inductive Prog (α : Type) where
  | ret (r : Res α)
  | read (a : Addr) (k : Cell → Prog α)
  | alloc (c : Cell) (k : Addr → Prog α)
  | write (a : Addr) (c : Cell) (k : Prog α)
  | stuck

namespace Prog

/-- `x; f`, where an error (or a panic) ends the program. (as at pass/alt.go:11-14) -/
def bind {α β : Type} : Prog α → (α → Prog β) → Prog β
  | .ret (.ok a), f => f a
  | .ret (.err e), _ => .ret (.err e)
  | .ret .panic, _ => .ret .panic
  | .read a k, f => .read a fun c => (k c).bind f
  | .alloc c k, f => .alloc c fun a => (k a).bind f
  | .write a c k, f => .write a c (k.bind f)
  | .stuck, _ => .stuck

instance : Monad Prog where
  pure a := .ret (.ok a)
  bind := Prog.bind

/-- Read a cell. (pass/alt.go:11, 32-37, 77, 86, 109) -/
def get (a : Addr) : Prog Cell := .read a fun c => .ret (.ok c)
/-- Allocate a cell. (pass/alt.go:53, 108, 116-119) -/
def new (c : Cell) : Prog Addr := .alloc c fun a => .ret (.ok a)
/-- Overwrite a cell. (pass/alt.go:15) -/
def put (a : Addr) (c : Cell) : Prog Unit := .write a c (.ret (.ok ()))

/-- Run a program alone. (pass/alt.go:10-17 as called at cmd/ssarules/main.go:95) -/
def exec {α : Type} : Prog α → HM α
  | .ret r, h => some (r, h)
  | .read a k, h =>
    match h[a]? with
    | some c => (k c).exec h
    | none => none
  | .alloc c k, h => (k h.length).exec (h ++ [c])
  | .write a c k, h => if a < h.length then k.exec (h.set a c) else none
  | .stuck, _ => none

end Prog

open Prog

/-- A loop that collects results and stops at the first error. (pass/alt.go:20-28) -/
def forP {α β : Type} (f : α → Prog β) : List α → Prog (List β)
  | [] => .ret (.ok [])
  | x :: xs => do
    let y ← f x
    let ys ← forP f xs
    return y :: ys

/-- The body of the loop generating alternate S-expressions (pass/alt.go:104-122). -/
def pbuildSExpr (hd : Hdr) (arr : Addr) (opcodes : List Str) (expargs : List (List HVal)) (i : Nat) : Prog HVal := do
  let v ← new (.sexpr hd arr)
  let o ← .ret (getIdx opcodes (idx i opcodes.length))
  put v (.sexpr { hd with op := .opcode o } arr)
  let args ← .ret (forRes (fun alts => getIdx alts (idx i alts.length)) expargs)
  let arr' ← new (.values args)
  put v (.sexpr { hd with op := .opcode o } arr')
  return .sexpr v

/-- The argument loop of `expandsexpr` (pass/alt.go:85-98), given the function for one argument. -/
def pexpandargs (ev : HVal → Prog (List HVal)) : Nat → List HVal → Prog (Nat × List (List HVal))
  | n, [] => return (n, [])
  | n, a :: as => do
    let exparg ← ev a
    let n' ← .ret (resolvecounts n exparg.length)
    let r ← pexpandargs ev n' as
    return (r.1, exparg :: r.2)

/-- `expandvalue` and `expandsexpr` (pass/alt.go:64-125); the first argument bounds the recursion depth. -/
def pexpandvalue : Nat → HVal → Prog (List HVal)
  | 0, _ => .stuck
  | fuel + 1, .sexpr p => do
    match ← get p with
    | .sexpr hd arr =>
      let opcodes ← .ret (expandop hd.op)
      match ← get arr with
      | .values args =>
        let r ← pexpandargs (pexpandvalue fuel) opcodes.length args
        if r.1 = 1 then return [.sexpr p]
        else forP (pbuildSExpr hd arr opcodes r.2) (List.range r.1)
      | _ => .stuck
    | _ => .stuck
  | _ + 1, .expr e => return [.expr e]
  | _ + 1, .var v => return [.var v]
  | _ + 1, .nil => .ret (.err (.unexpectedType nilType))

/-- The body of the loop generating alternate rules (pass/alt.go:52-59). -/
def pbuildRule (cond : Option GoExpr) (block : Str) (ms rs : List HVal) (i : Nat) : Prog Addr := do
  let m ← .ret (getIdx ms (idx i ms.length))
  let v ← .ret (getIdx rs (idx i rs.length))
  new (.rule m cond block v)

/-- `expandrule` (pass/alt.go:31-62). -/
def pexpandrule (fuel : Nat) (p : Addr) : Prog (List Addr) := do
  match ← get p with
  | .rule m cond block res =>
    let ms ← pexpandvalue fuel m
    let rs ← pexpandvalue fuel res
    let n ← .ret (resolvecounts ms.length rs.length)
    if n = 1 then return [p]
    else forP (pbuildRule cond block ms rs) (List.range n)
  | _ => .stuck

/-- `expandrules` (pass/alt.go:19-29). -/
def pexpandrules (fuel : Nat) (rs : List Addr) : Prog (List Addr) := do
  let xss ← forP (pexpandrule fuel) rs
  return xss.flatten

/-- `ExpandAlternates` (pass/alt.go:10-17). -/
def pexpandAlternates (fuel : Nat) (f : Addr) : Prog Unit := do
  match ← get f with
  | .file arr =>
    match ← get arr with
    | .rules rs =>
      let out ← pexpandrules fuel rs
      let arr' ← new (.rules out)
      put f (.file arr')
    | _ => .stuck
  | _ => .stuck

end Verif

import Verif.Spec.Disk
/-!
# Several runs of the command at the same time

Each process does its own operations in its own order, and the operations of different processes may come in any order in between.  `ioutil.WriteFile` opens the file
(it is created or becomes empty) and writes to its own file position: a byte goes to this position even if another process has made the file
empty in the meantime (then the bytes before it are zero) or has made it longer.  The operating system may take the data in pieces of any size, so the operations are
single bytes.
-/
namespace Verif.Spec
open Verif

inductive FileOp where
  /-- the file is created, or becomes empty -/
  | trunc (place : List Str)
  /-- one byte at a position -/
  | put (place : List Str) (pos : Nat) (b : UInt8)

def FileOp.place : FileOp → List Str
  | .trunc p => p
  | .put p _ _ => p

/-- A byte is written at a position; a gap before it is filled with zero bytes. -/
def putAt (c : List UInt8) (pos : Nat) (b : UInt8) : List UInt8 :=
  if pos < c.length then c.set pos b else c ++ List.replicate (pos - c.length) 0 ++ [b]

def Disk.op (d : Disk) : FileOp → Disk
  | .trunc p => fun q => if q = p then some [] else d q
  | .put p pos b => fun q => if q = p then (d q).map fun c => putAt c pos b else d q

def Disk.ops (d : Disk) (l : List FileOp) : Disk := l.foldl Disk.op d

/-- Writing data from a position on. -/
def putsFrom (place : List Str) : Nat → List UInt8 → List FileOp
  | _, [] => []
  | pos, b :: bs => .put place pos b :: putsFrom place (pos + 1) bs

/-- The operations of a run, in order. -/
def fileOps (cwd : List Str) : List Event → List FileOp
  | [] => []
  | .write n s :: tr => .trunc (locate cwd n) :: putsFrom (locate cwd n) 0 (utf8 s) ++ fileOps cwd tr
  | _ :: tr => fileOps cwd tr

/-- A process that runs the command. -/
structure CmdProc where
  cwd : List Str
  outdir : Str
  inputs : List Input
  ans : List (Str × Str) → Option Err

/-- All its operations. -/
def CmdProc.ops (lib : GoLib) (c : CmdProc) : List FileOp := fileOps c.cwd (runCmd lib c.ans c.outdir c.inputs).1

/-- It ends without an error if nobody kills it. -/
def CmdProc.Succeeds (lib : GoLib) (c : CmdProc) : Prop := (runCmd lib c.ans c.outdir c.inputs).2 = .ok ()

/-- The script of rule number `i` of the process is `s` and its place is `p`. -/
def CmdProc.Puts (lib : GoLib) (c : CmdProc) (p : List Str) (s : Str) : Prop :=
  ∃ files i, Loads lib c.inputs files ∧ HasScript files i s ∧ IsScriptPlace c.cwd c.outdir i p

/-- Processes with the same output directory have been given the same rules. -/
def Compatible (lib : GoLib) (cmds : List CmdProc) : Prop :=
  ∀ c ∈ cmds, ∀ c' ∈ cmds, locate c.cwd c.outdir = locate c'.cwd c'.outdir → ∀ files files', Loads lib c.inputs files → Loads lib c'.inputs files' → files = files'

/-- `Exec progs done rest`: the operations `done` have been carried out, one after the other, each by one of the processes, which do the operations
`progs[j]`, in their order; `rest[j]` are the operations process `j` has not done. -/
inductive Exec {α : Type} : List (List α) → List α → List (List α) → Prop
  | start (progs : List (List α)) : Exec progs [] progs
  | step {progs rest : List (List α)} {done l : List α} (j : Nat) {a : α} : Exec progs done rest → rest[j]? = some (a :: l) →
      Exec progs (done ++ [a]) (rest.set j l)

/-- A text as it may be while it is being written, or when its writing was disturbed: not longer than the whole text, and each byte is the right one or zero. -/
def Patchy (part whole : List UInt8) : Prop :=
  part.length ≤ whole.length ∧ ∀ (i : Nat) (b : UInt8), part[i]? = some b → b = 0 ∨ whole[i]? = some b

end Verif.Spec

import Verif.Spec.Disk
import Verif.Spec.Log
/-!
# What a run of the command does to the disk and to its log, in the order in which it does it (C79)

The log package does not buffer: every message goes to standard error before the next statement runs (main.go:19-20, 44-59).  The steps of the disk are those of
Spec/Disk; the log grows character by character.  If the process is killed only a beginning of the steps has been done.  The message of the error with which the
process may end (`log.Fatal`, main.go:23) is not part of the steps: it comes after all of them.
-/
namespace Verif.Spec
open Verif

inductive Effect where
  /-- a step on the disk -/
  | disk (s : DiskStep)
  /-- one character is written to standard error -/
  | log (c : Char)

def Effect.disk? : Effect → Option DiskStep
  | .disk s => some s
  | .log _ => none

def Effect.log? : Effect → Option Char
  | .disk _ => none
  | .log c => some c

/-- The characters of the message of an event, if it has one. -/
def eventText (ev : Event) : Str :=
  match ev.message with
  | none => []
  | some m => entryText m

/-- The steps of a run. -/
def effects (cwd : List Str) : List Event → List Effect
  | [] => []
  | ev :: tr => (diskSteps cwd [ev]).map .disk ++ (eventText ev).map .log ++ effects cwd tr

/-- The disk after these steps. -/
def diskAfter (d : Disk) (es : List Effect) : Disk := d.run (es.filterMap Effect.disk?)

/-- The log after these steps. -/
def logAfter (es : List Effect) : Str := es.filterMap Effect.log?

/-- The steps of a run of the command that was stopped, for whatever reason, after `k` steps. -/
def stoppedEffects (lib : GoLib) (cwd : List Str) (outdir : Str) (inputs : List Input) (ans : List (Str × Str) → Option Err) (k : Nat) : List Effect :=
  (effects cwd (runCmd lib ans outdir inputs).1).take k

/-- Whole lines: nothing, or a text with a newline at the end. -/
def WholeLines (text : Str) : Prop := text = [] ∨ text.getLast? = some '\n'

/-- How many rules the log has announced. -/
def announced (entries : List Entry) : Nat := entries.countP fun | .rule _ => true | _ => false

end Verif.Spec

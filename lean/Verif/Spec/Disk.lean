import Verif.Spec.Cmd
import Verif.Spec.Utf8
/-!
# What the command does to the file system, in small steps

A disk maps places (lists of names, see `locate`) to the contents of the file there.  `ioutil.WriteFile` (called in cmd/ssarules/main.go:54)
opens the file with O_TRUNC and then appends the data; the operating system may accept the data in pieces of any size, so the steps are: the
file becomes empty, then grows byte by byte.  If the process is killed, or the call fails half way, only a beginning of the steps has been
done.  Not modelled: symbolic and hard links, other processes writing at the same time (for other runs of the command see
Spec/Simul), loss of data that was accepted by the operating
system (power failure), permission bits.
-/
namespace Verif.Spec
open Verif

abbrev Disk := List Str → Option (List UInt8)

inductive DiskStep where
  /-- the file is created, or becomes empty -/
  | create (place : List Str)
  /-- one byte is appended -/
  | append (place : List Str) (b : UInt8)

def Disk.step (d : Disk) : DiskStep → Disk
  | .create p => fun q => if q = p then some [] else d q
  | .append p b => fun q => if q = p then (d q).map (· ++ [b]) else d q

def Disk.run (d : Disk) (steps : List DiskStep) : Disk := steps.foldl Disk.step d

/-- The steps of one `WriteFile`. -/
def writeSteps (cwd : List Str) (name : Str) (data : List UInt8) : List DiskStep :=
  .create (locate cwd name) :: data.map fun b => .append (locate cwd name) b

/-- The steps of a run. -/
def diskSteps (cwd : List Str) : List Event → List DiskStep
  | [] => []
  | .write n s :: tr => writeSteps cwd n (utf8 s) ++ diskSteps cwd tr
  | _ :: tr => diskSteps cwd tr

/-- The disk after a run of the command that was stopped, for whatever reason, after `k` steps. -/
def stopped (lib : GoLib) (cwd : List Str) (outdir : Str) (inputs : List Input) (ans : List (Str × Str) → Option Err) (k : Nat) (d : Disk) : Disk :=
  d.run ((diskSteps cwd (runCmd lib ans outdir inputs).1).take k)

/-- The disk after a run of the command that was not stopped. -/
def finished (lib : GoLib) (cwd : List Str) (outdir : Str) (inputs : List Input) (ans : List (Str × Str) → Option Err) (d : Disk) : Disk :=
  d.run (diskSteps cwd (runCmd lib ans outdir inputs).1)

/-- `p` is the place of the script of rule number `i`: the entry of the output directory with the name `%04d.smt2`. -/
def IsScriptPlace (cwd : List Str) (outdir : Str) (i : Nat) (p : List Str) : Prop :=
  ∃ n, IsScriptName i n ∧ p = locate cwd outdir ++ [n]

/-- Rule number `i` of all expanded simple rules exists, the generator accepts it, and `s` is its script. -/
def HasScript (files : List File) (i : Nat) (s : Str) : Prop := ∃ r, (verified files)[i]? = some r ∧ generate r = .ok s

end Verif.Spec

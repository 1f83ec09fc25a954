import Verif.Model.Cmd
import Verif.Spec.Expand
import Verif.Spec.Print
/-!
# Specification of the command
-/
namespace Verif.Spec
open Verif

/-- Every input file can be opened, read, closed and parsed; `files` are the results, in order. -/
inductive Loads (lib : GoLib) : List Input → List File → Prop where
  | nil : Loads lib [] []
  | cons {inp f inps fs} : inp.openErr = none → inp.readErr = none → inp.closeErr = none → parseBytes lib inp.data = .ok f →
      Loads lib inps fs → Loads lib (inp :: inps) (f :: fs)

/-- All rules of the files, in order. -/
def allRules (files : List File) : List Rule := files.flatMap (·.rules)

open Classical in
/-- The rules without condition, block, binding, type, AuxInt, Aux, ellipsis and trailing, in order. -/
noncomputable def simpleRules (files : List File) : List Rule := (allRules files).filter fun r => decide (Simple r)

/-- The rules the command works on: each simple rule replaced by its expansions (the `i`-th one has the `i`-th entry picked in every
alternation). -/
noncomputable def verified (files : List File) : List Rule :=
  (simpleRules files).flatMap fun r => (List.range (count (ruleSizes r))).map fun i => pickRule i r

/-- What is logged while loading. -/
def parsedEvents : List Input → List File → List Event
  | inp :: inps, f :: fs => .parsed f.rules.length inp.name :: parsedEvents inps fs
  | _, _ => []

/-- What happens for rule number `i`: the rule is logged; then either the generator's script is written and that is logged, or the generator's
error is logged. -/
def ruleEvents (outdir : Str) (i : Nat) (r : Rule) : List Event :=
  .rule (showRule r) ::
    match generate r with
    | .ok s => [.write (joinPath outdir (scriptName i)) s, .written (joinPath outdir (scriptName i))]
    | .err e => [.genError e]
    | .panic => []

/-- … for rules number `i`, `i + 1`, … -/
def rulesEvents (outdir : Str) : Nat → List Rule → List Event
  | _, [] => []
  | i, r :: rs => ruleEvents outdir i r ++ rulesEvents outdir (i + 1) rs

/-- Everything that happens in a run that is not cut short. -/
noncomputable def allEvents (outdir : Str) (inputs : List Input) (files : List File) : List Event :=
  parsedEvents inputs files ++
    [.total (allRules files).length, .simple (simpleRules files).length, .expanded (verified files).length] ++
    rulesEvents outdir 0 (verified files)

/-- The part of the events up to and including some write that all went well: every write in `tr` was answered without an error. -/
def AllWritten (ans : List (Str × Str) → Option Err) (tr : List Event) : Prop :=
  ∀ p n s rest, tr = p ++ .write n s :: rest → ans (writesOf (p ++ [.write n s])) = none

/-- The contents of the files after successful writes, each of which replaces the contents of its file. -/
def filesAfter (fs : Str → Option Str) : List (Str × Str) → Str → Option Str
  | [] => fs
  | (n, s) :: ws => filesAfter (fun m => if m = n then some s else fs m) ws

/-! ## Names and paths -/

/-- The number a string of decimal digits stands for. -/
def decimal (d : Str) : Nat := d.foldl (fun v c => 10 * v + (c.toNat - '0'.toNat)) 0

/-- `%04d.smt2`: the number in decimal, filled up with zeros to four digits but otherwise without leading zeros, and `.smt2`. -/
def IsScriptName (i : Nat) (n : Str) : Prop :=
  ∃ d : Str, n = d ++ ['.', 's', 'm', 't', '2'] ∧ (∀ c ∈ d, c.isDigit = true) ∧ decimal d = i ∧ 4 ≤ d.length ∧
    (4 < d.length → d.head? ≠ some '0')

/-- Where one path element leads from a directory.  A place in the file tree is the list of names on the way from the root to it; there are no
symbolic links. -/
def goto (dir : List Str) (w : Str) : List Str :=
  if w = [] ∨ w = ['.'] then dir else if w = ['.', '.'] then dir.dropLast else dir ++ [w]

/-- Follow a path from `dir`; `w` is the part of the current path element that has been read. -/
def follow (dir : List Str) (w : Str) : Str → List Str
  | [] => goto dir w
  | c :: p => if c = '/' then follow (goto dir w) [] p else follow dir (w ++ [c]) p

/-- The place a path names, for a process with the working directory `cwd`. -/
def locate (cwd : List Str) (p : Str) : List Str := if p.head? = some '/' then follow [] [] p else follow cwd [] p

end Verif.Spec

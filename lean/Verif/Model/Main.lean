import Verif.Model.Cmd
/-!
# Model of the process: command line, exit status, standard error (cmd/ssarules/main.go:18-34)

Package flag is not part of the repo; `parseArgs` is written from its source (Go 1.16, `(*FlagSet).Parse` and `parseOne`) for the one flag defined here,
`-outdir`, a string that is "" by default (main.go:27).  `flag.CommandLine` exits on an error (`flag.ExitOnError`).
-/
namespace Verif

/-- The outcome of `flag.Parse` (main.go:30) and `flag.Args` (main.go:31). -/
inductive ArgOut where
  /-- the value of the flag `-outdir` and the arguments left -/
  | go (outdir : Str) (files : List Str)
  /-- `-h` or `-help`: `flag.ErrHelp` -/
  | help
  /-- an error, with its text -/
  | bad (text : Str)
  deriving DecidableEq, Repr

/-- The loop of `parseOne` (package flag) that looks for `=`: what is before the first one and, if there is one, what is after it. (called through cmd/ssarules/main.go:30) -/
def cutEq : Str → Str × Option Str
  | [] => ([], none)
  | d :: t => if d = '=' then ([], some t) else (d :: (cutEq t).1, (cutEq t).2)

/-- The part of `parseOne` (package flag) that splits `name=value` at the first `=` that is not the first character. (called through cmd/ssarules/main.go:30) -/
def splitEq : Str → Str × Option Str
  | [] => ([], none)
  | c :: s => (c :: (cutEq s).1, (cutEq s).2)

/-- `(*FlagSet).Parse` with its loop over `parseOne` (package flag), for `var outdir` (main.go:27), whose current value is the first argument. -/
def parseArgs (outdir : Str) : List Str → ArgOut
  | [] => .go outdir []
  | s :: args =>
    if s.length < 2 ∨ s.head? ≠ some '-' then .go outdir (s :: args)
    else if s = ['-', '-'] then .go outdir args
    else
      let name := if s.tail.head? = some '-' then s.tail.tail else s.tail
      if name = [] ∨ name.head? = some '-' ∨ name.head? = some '=' then .bad ("bad flag syntax: ".toList ++ s)
      else
        let nv := splitEq name
        if nv.1 = "outdir".toList then
          match nv.2, args with
          | some v, args => parseArgs v args
          | none, v :: args => parseArgs v args
          | none, [] => .bad "flag needs an argument: -outdir".toList
        else if nv.1 = "help".toList ∨ nv.1 = "h".toList then .help
        else .bad ("flag provided but not defined: -".toList ++ nv.1)

/-- What `flag.Usage` prints (package flag: the default `Usage` and `PrintDefaults`), for the program name `prog` (`os.Args[0]`). (for the flag of cmd/ssarules/main.go:27) -/
def usageText (prog : Str) : Str :=
  "Usage of ".toList ++ prog ++ ":\n  -outdir string\n    \toutput directory\n".toList

/-- What is left of a process: what it has done, its exit status and what is on standard error. (cmd/ssarules/main.go:18-25) -/
structure Process where
  events : List Event
  status : Nat
  stderr : Str

/-- `main` (main.go:18-34) as a process.  `opened i name` is what opening, reading and closing the file `name` yields when it is the `i`-th argument. -/
def mainProcess (lib : GoLib) (opened : Nat → Str → Input) (ans : List (Str × Str) → Option Err) (prog : Str) (args : List Str) : Process :=
  match parseArgs [] args with
  | .help => ⟨[], 0, usageText prog⟩
  | .bad text => ⟨[], 2, text ++ '\n' :: usageText prog⟩
  | .go outdir files =>
    let r := runCmd lib ans outdir ((files.zipIdx).map fun p => { opened p.2 p.1 with name := p.1 })
    ⟨r.1, exitStatus r.2, stderrText r⟩

end Verif

import Verif.Model.Filter
import Verif.Model.Expand
import Verif.Model.Printer
import Verif.Model.Smt2
import Verif.Model.PegErr
/-!
# Model of cmd/ssarules/main.go

The environment is explicit: what opening, reading and closing each input file yields, and the answer to each write (which may depend on
everything written before).  The effects are a trace of events: writes and log messages; what the log looks like is `stderrText`.  The output
directory and the list of files are parameters; Model/Main has the command line.  Not modelled: failures to write the log, and the contents of a file after a failed write.
-/
namespace Verif

/-- One input file: its name and what `os.Open`, `ioutil.ReadAll` and `Close` yield (zparser.go:1739, 1744, 1754); `none` is no error. -/
structure Input where
  name : Str
  openErr : Option Err := none
  readErr : Option Err := none
  data : List UInt8
  closeErr : Option Err := none

/-- The texts of the errors that are made inside `parser.Parse` but not by it (`Inner` in zparser.go:1942). -/
def goTexts (lib : GoLib) : Texts where
  goError := fun t => match goexprParse lib t with | .err e => e.text | _ => []
  panic := lib.panicText

/-- `parse.Reader(filename, …)` (parse/parse.go:21-23) once the data have been read, with the list of errors made into an `error` (zparser.go:1920-1937). -/
def parseData (lib : GoLib) (filename : Str) (data : List UInt8) : Res File :=
  match parseFull lib (goTexts lib) lib.order filename data with
  | .file f => .ok f
  | .errors es => .err (.other (errListText (PError.text (goTexts lib) filename) es))
  | .panic => .panic

/-- `parse.File` (parse/parse.go:15-17): `ParseFile` (zparser.go:1738-1749), whose deferred close replaces the error, then `cast`. -/
def parseFile (lib : GoLib) (inp : Input) : Res File :=
  match inp.openErr with
  | some e => .err e
  | none =>
    match (match inp.readErr with | some e => Res.err e | none => parseData lib inp.name inp.data), inp.closeErr with
    | .panic, _ => .panic
    | _, some e => .err e
    | r, none => r

/-- Observable effects, in order.  All but `write` are log messages. (cmd/ssarules/main.go:45, 49, 54, 58, 72, 75, 92, 99) -/
inductive Event where
  /-- "parsed %d rules from %s" (main.go:72) -/
  | parsed (n : Nat) (file : Str)
  /-- "parsed %d rules total" (main.go:75) -/
  | total (n : Nat)
  /-- "filter simple: %d rules" (main.go:92) -/
  | simple (n : Nat)
  /-- "expand alternates: %d rules" (main.go:99) -/
  | expanded (n : Nat)
  /-- "rule: %s" (main.go:45) -/
  | rule (text : Str)
  /-- "error: %s" (main.go:49) -/
  | genError (e : Err)
  /-- the call of `ioutil.WriteFile` (main.go:54), whether it succeeds or not -/
  | write (name : Str) (contents : Str)
  /-- "smt2: written to %s" (main.go:58) -/
  | written (name : Str)

/-- The loop over the file names in `load` (main.go:66-74). -/
def parseAll (lib : GoLib) : List Input → List Event × Res (List Rule)
  | [] => ([], .ok [])
  | inp :: rest =>
    match parseFile lib inp with
    | .err e => ([], .err (.other ("parse: ".toList ++ e.text)))
    | .panic => ([], .panic)
    | .ok f =>
      match parseAll lib rest with
      | (tr, .ok rs) => (.parsed f.rules.length inp.name :: tr, .ok (f.rules ++ rs))
      | (tr, r) => (.parsed f.rules.length inp.name :: tr, r)

/-- `load` (main.go:64-102). -/
def load (lib : GoLib) (inputs : List Input) : List Event × Res File :=
  match parseAll lib inputs with
  | (tr, .err e) => (tr, .err e)
  | (tr, .panic) => (tr, .panic)
  | (tr, .ok rs) =>
    let tr := tr ++ [.total rs.length]
    match filterSimple rs with
    | .err e => (tr, .err e)
    | .panic => (tr, .panic)
    | .ok s =>
      let tr := tr ++ [.simple s.length]
      match expandAlternates { rules := s } with
      | .err e => (tr, .err e)
      | .panic => (tr, .panic)
      | .ok f => (tr ++ [.expanded f.rules.length], .ok f)

/-- Split at every `/`. (part of `filepath.Join`, called at cmd/ssarules/main.go:53) -/
def splitSlash : Str → List Str
  | [] => [[]]
  | c :: s =>
    if c = '/' then [] :: splitSlash s
    else
      match splitSlash s with
      | w :: ws => (c :: w) :: ws
      | [] => [[c]]

/-- One path element in `filepath.Clean` (Go standard library, Unix): `stack` holds the elements kept so far, last one first. -/
def cleanStep (rooted : Bool) (stack : List Str) (w : Str) : List Str :=
  if w = [] ∨ w = ['.'] then stack
  else if w = ['.', '.'] then
    match stack with
    | [] => if rooted then [] else [w]
    | top :: rest => if top = ['.', '.'] then w :: stack else rest
  else w :: stack

/-- Elements joined with `/`. (part of `filepath.Join`, called at cmd/ssarules/main.go:53) -/
def joinSlash : List Str → Str
  | [] => []
  | [w] => w
  | w :: ws => w ++ '/' :: joinSlash ws

/-- `filepath.Clean` (Go standard library, Unix). -/
def cleanPath (p : Str) : Str :=
  let rooted := p.head? == some '/'
  let ws := ((splitSlash p).foldl (cleanStep rooted) []).reverse
  if rooted then '/' :: joinSlash ws
  else if ws = [] then ['.']
  else joinSlash ws

/-- `filepath.Join(*outdir, name)` (main.go:53) for a non-empty `name` (Go standard library, Unix). -/
def joinPath (outdir name : Str) : Str := cleanPath (if outdir = [] then name else outdir ++ '/' :: name)

/-- `fmt.Sprintf("%04d.smt2", i)` (main.go:53). -/
def scriptName (i : Nat) : Str :=
  let d := Nat.toDigits 10 i
  List.replicate (4 - d.length) '0' ++ d ++ ['.', 's', 'm', 't', '2']

/-- The writes among the events. (the calls at cmd/ssarules/main.go:54) -/
def writesOf (tr : List Event) : List (Str × Str) := tr.filterMap fun | .write n c => some (n, c) | _ => none

/-- The loop over the rules in `run` (main.go:40-59).  `ans` answers a write, given all writes so far including this one. -/
def genLoop (ans : List (Str × Str) → Option Err) (outdir : Str) : Nat → List Rule → List Event → List Event × Res Unit
  | _, [], tr => (tr, .ok ())
  | i, r :: rs, tr =>
    match printBytes (.rule r) with
    | .err e => (tr, .err e)
    | .panic => (tr, .panic)
    | .ok text =>
      let tr := tr ++ [.rule text]
      match generate r with
      | .panic => (tr, .panic)
      | .err e => genLoop ans outdir (i + 1) rs (tr ++ [.genError e])
      | .ok b =>
        let filename := joinPath outdir (scriptName i)
        let tr := tr ++ [.write filename b]
        match ans (writesOf tr) with
        | some e => (tr, .err e)
        | none => genLoop ans outdir (i + 1) rs (tr ++ [.written filename])

/-- `run` (main.go:29-62), after flag parsing. -/
def runCmd (lib : GoLib) (ans : List (Str × Str) → Option Err) (outdir : Str) (inputs : List Input) : List Event × Res Unit :=
  match load lib inputs with
  | (tr, .err e) => (tr, .err e)
  | (tr, .panic) => (tr, .panic)
  | (tr, .ok f) => genLoop ans outdir 0 f.rules tr

/-- `main` (main.go:18-25): the exit status; `log.Fatal` exits with 1, a panic with 2. -/
def exitStatus : Res Unit → Nat
  | .ok _ => 0
  | .err _ => 1
  | .panic => 2

/-- The message of a log event: what `log.Printf` is called with (main.go:45, 49, 58, 72, 75, 92, 99). -/
def Event.message : Event → Option Str
  | .parsed n file => some ("parsed ".toList ++ natStr n ++ " rules from ".toList ++ file)
  | .total n => some ("parsed ".toList ++ natStr n ++ " rules total".toList)
  | .simple n => some ("filter simple: ".toList ++ natStr n ++ " rules".toList)
  | .expanded n => some ("expand alternates: ".toList ++ natStr n ++ " rules".toList)
  | .rule text => some ("rule: ".toList ++ text)
  | .genError e => some ("error: ".toList ++ e.text)
  | .write _ _ => none
  | .written name => some ("smt2: written to ".toList ++ name)

/-- What one call of the log package writes: the prefix set at main.go:19, no date or place (main.go:20), the message, and a newline unless the message ends with
one (Go standard library, `(*log.Logger).Output`). -/
def logLine (s : Str) : Str := "ssarules: ".toList ++ s ++ if s.getLast? = some '\n' then [] else ['\n']

/-- Everything on standard error: the log messages, and the error `log.Fatal` is called with (main.go:22-24).  (After a panic the runtime would add its own text.) -/
def stderrText (r : List Event × Res Unit) : Str :=
  (r.1.filterMap Event.message).flatMap logLine ++ match r.2 with | .err e => logLine e.text | _ => []

end Verif

import Verif.Spec.Cmd
import Verif.Spec.Message
/-!
# Specification: reading the log of the command

A reader for the log on standard error, written from its format only: every entry is one line that begins with `ssarules: `.
-/
namespace Verif.Spec
open Verif

/-- What a line of the log says. -/
inductive Entry where
  /-- `parsed 3 rules from f` -/
  | parsed (n : Nat) (file : Str)
  /-- `parsed 3 rules total` -/
  | total (n : Nat)
  /-- `filter simple: 3 rules` -/
  | simple (n : Nat)
  /-- `expand alternates: 3 rules` -/
  | expanded (n : Nat)
  /-- `rule: (And8 x x) => x` -/
  | rule (text : Str)
  /-- `error: not supported: opcode Foo` -/
  | error (text : Str)
  /-- `smt2: written to out/0000.smt2` -/
  | written (name : Str)
  deriving DecidableEq, Repr

/-- Reads `3 rules`. -/
def readRules (text : Str) : Option Nat := do
  let (n, rest) ← cut " rules".toList text
  if rest = [] then readNumber n else none

/-- Reads `3 rules total` or `3 rules from f`. -/
def readParsed (text : Str) : Option Entry := do
  let (n, rest) ← cut " rules ".toList text
  if rest = "total".toList then return .total (← readNumber n)
  else return .parsed (← readNumber n) (← after "from ".toList rest)

/-- Reads a line. -/
def readEntry (line : Str) : Option Entry := do
  let m ← after "ssarules: ".toList line
  match after "rule: ".toList m with
  | some text => return .rule text
  | none =>
  match after "error: ".toList m with
  | some text => return .error text
  | none =>
  match after "smt2: written to ".toList m with
  | some name => return .written name
  | none =>
  match after "filter simple: ".toList m with
  | some n => return .simple (← readRules n)
  | none =>
  match after "expand alternates: ".toList m with
  | some n => return .expanded (← readRules n)
  | none => readParsed (← after "parsed ".toList m)

/-- Reads a list of lines, each of which is an entry. -/
def readEntries : List Str → Option (List Entry)
  | [] => some []
  | l :: ls => do return (← readEntry l) :: (← readEntries ls)

/-- Reads a log: lines, each with a newline at the end. -/
def readLog (text : Str) : Option (List Entry) :=
  if text = [] then some []
  else if text.getLast? = some '\n' then readEntries (messageLines text.dropLast) else none

/-- The entries about the files. -/
def parsedEntries : List Input → List File → List Entry
  | inp :: inps, f :: fs => .parsed f.rules.length inp.name :: parsedEntries inps fs
  | _, _ => []

/-- The entries about rule number `i`: the rule; then either where its script has been written to, or why it has none. -/
def ruleEntries (outdir : Str) (i : Nat) (r : Rule) : List Entry :=
  [.rule (showRule r), match generate r with | .ok _ => .written (joinPath outdir (scriptName i)) | .err e => .error e.text | .panic => .error []]

/-- … about rules number `i`, `i + 1`, … -/
def rulesEntries (outdir : Str) : Nat → List Rule → List Entry
  | _, [] => []
  | i, r :: rs => ruleEntries outdir i r ++ rulesEntries outdir (i + 1) rs

/-- The entries about loading. -/
noncomputable def loadEntries (inputs : List Input) (files : List File) : List Entry :=
  parsedEntries inputs files ++ [.total (allRules files).length, .simple (simpleRules files).length, .expanded (verified files).length]

/-- Why an input does not load, in words: it cannot be opened; or not closed (which takes precedence over the errors before); or not read; or it does not parse, and then
these are the messages about it, one per line. -/
inductive InputError (lib : GoLib) (inp : Input) : Str → Prop where
  | opening {e} : inp.openErr = some e → InputError lib inp e.text
  | closing {e} : inp.openErr = none → inp.closeErr = some e → InputError lib inp e.text
  | reading {e} : inp.openErr = none → inp.closeErr = none → inp.readErr = some e → InputError lib inp e.text
  | parsing {es} : inp.openErr = none → inp.closeErr = none → inp.readErr = none →
      parseFull lib (goTexts lib) lib.order inp.name inp.data = .errors es →
      InputError lib inp (['\n'].intercalate (es.map (PError.text (goTexts lib) inp.name)))

/-- A text as one entry of the log. -/
def entryText (text : Str) : Str := "ssarules: ".toList ++ text ++ if text.getLast? = some '\n' then [] else ['\n']

end Verif.Spec

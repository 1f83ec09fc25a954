import Verif.Model.Main
/-!
# Specification of the command line

`ssarules [-outdir DIR] [FILE …]`
-/
namespace Verif.Spec
open Verif

/-- An argument that looks like an option: a dash and something behind it. -/
def IsOption (s : Str) : Prop := ∃ c t, s = '-' :: c :: t

/-- How the output directory `d` is given: in one or two arguments, with one or two dashes. -/
inductive GivesDir : List Str → Str → Prop where
  | next (d : Str) : GivesDir ["-outdir".toList, d] d
  | next2 (d : Str) : GivesDir ["--outdir".toList, d] d
  | same (d : Str) : GivesDir ["-outdir=".toList ++ d] d
  | same2 (d : Str) : GivesDir ["--outdir=".toList ++ d] d

/-- Options one after the other, and the directory they stand for: the last one counts; without any it is empty. -/
inductive Options : List Str → Str → Prop where
  | none : Options [] []
  | more {opts d' o d} : Options opts d' → GivesDir o d → Options (opts ++ o) d

/-- A command line that makes sense: options, then the files.  The options end before the first argument that is not an option or after `--`. -/
inductive Means : List Str → Str → List Str → Prop where
  | files {opts d files} : Options opts d → (∀ s, files.head? = some s → ¬ IsOption s) → Means (opts ++ files) d files
  | dashes {opts d files} : Options opts d → Means (opts ++ ['-', '-'] :: files) d files

/-- An option: dashes, a name, possibly `=` and a value.  (A name does not begin with a dash or `=` and has no `=` in it.) -/
inductive Named (name : Str) : Str → Prop where
  | plain {dashes} : dashes = ['-'] ∨ dashes = ['-', '-'] → Named name (dashes ++ name)
  | value {dashes v} : dashes = ['-'] ∨ dashes = ['-', '-'] → Named name (dashes ++ name ++ '=' :: v)

/-- A name of an option. -/
def IsName (name : Str) : Prop := name ≠ [] ∧ name.head? ≠ some '-' ∧ '=' ∉ name

/-- What is wrong with the first argument of a list, and how it is reported. -/
inductive Wrong : List Str → Str → Prop where
  /-- `---…`, `-=…`, `--=…` -/
  | syntax {s t rest} : s = "---".toList ++ t ∨ s = "-=".toList ++ t ∨ s = "--=".toList ++ t → Wrong (s :: rest) ("bad flag syntax: ".toList ++ s)
  /-- `-outdir` at the end -/
  | missing {s} : s = "-outdir".toList ∨ s = "--outdir".toList → Wrong [s] "flag needs an argument: -outdir".toList
  /-- another option -/
  | unknown {s name rest} : IsName name → name ≠ "outdir".toList → name ≠ "h".toList → name ≠ "help".toList → Named name s →
      Wrong (s :: rest) ("flag provided but not defined: -".toList ++ name)

/-- The first argument asks for help. -/
inductive Help : List Str → Prop where
  | help {s name rest} : name = "h".toList ∨ name = "help".toList → Named name s → Help (s :: rest)

/-- The command line is wrong, which is reported with `text`: after some good options there is something wrong. -/
def WrongLine (args : List Str) (text : Str) : Prop := ∃ opts d rest, args = opts ++ rest ∧ Options opts d ∧ Wrong rest text

/-- The command line asks for help, after some good options. -/
def HelpLine (args : List Str) : Prop := ∃ opts d rest, args = opts ++ rest ∧ Options opts d ∧ Help rest

/-- How the program is used. -/
def usage (prog : Str) : Str := "Usage of ".toList ++ prog ++ ":\n  -outdir string\n    \toutput directory\n".toList

/-- What the files named on the command line turn out to be: one input for each, in order, with its name.  `opened i name` is what opening, reading and closing the
file `name` as the `i`-th one yields. -/
def InputsFor (opened : Nat → Str → Input) (files : List Str) (inputs : List Input) : Prop :=
  ∀ i : Nat, inputs[i]? = files[i]?.map fun name => { opened i name with name := name }

end Verif.Spec

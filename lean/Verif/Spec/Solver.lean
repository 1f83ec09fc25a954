import Verif.Spec.Smt
import Verif.Spec.Utf8
/-!
# Solvers that go on after errors, and scripts that are cut off (C76)

`commands` in Spec/Smt gives up a script with an error.  Real solvers execute what came before the error; after the error some stop (`:error-behavior immediate-exit`) and others
ignore the command and go on (`:error-behavior continued-execution`), see section 4.1.8 of the SMT-LIB standard.  They read their input command by command, so they may have executed
any readable beginning of it.
-/
namespace Verif.Spec.Smt
open Verif

/-- Execute commands; `keep` tells after which errors the solver goes on. -/
def solve (keep : Session → SExp → Bool) : Session → List SExp → Session
  | σ, [] => σ
  | σ, e :: es =>
    match command σ e with
    | some σ' => solve keep σ' es
    | none => if keep σ e then solve keep σ es else σ

/-- A solver given the text can come to answer the query `q`: it has read some beginning of the text and executed the commands in it. -/
def Asked (keep : Session → SExp → Bool) (text : Str) (q : Query) : Prop :=
  ∃ a es, a <+: text ∧ readAll a = some es ∧ q ∈ (solve keep {} es).queries

/-- The same for the contents of a file. -/
def AskedFile (keep : Session → SExp → Bool) (bytes : List UInt8) (q : Query) : Prop :=
  ∃ a es, utf8 a <+: bytes ∧ readAll a = some es ∧ q ∈ (solve keep {} es).queries

end Verif.Spec.Smt

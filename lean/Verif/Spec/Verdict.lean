import Verif.Spec.Solver
import Verif.Spec.Ssa
import Verif.Spec.Disk
/-!
# Counterexamples, and what to check after a run (C77, C78)
-/
namespace Verif.Spec
open Verif Verif.Spec.Smt Verif.Spec.Ssa

/-- The assignment satisfies the query: it respects the sorts of the constants and makes all assertions true. -/
def IsModel (q : Query) (env : Str → Val) : Prop :=
  (∀ d ∈ q.decls, (env d.1).sort = d.2) ∧ ∀ t ∈ q.asserts, evalTerm env t = some (.bool true)

/-- A counterexample of a rule: values of the variables for which the two sides have different values of one sort. -/
def Refutes (env : Str → Val) (r : Rule) : Prop :=
  ∃ a b, eval env r.match = some a ∧ eval env r.result = some b ∧ a.sort = b.sort ∧ a ≠ b

/-- Some line of the log starts with `ssarules: error: `. -/
def ErrorLine (log : Str) : Prop :=
  ∃ a b, log = a ++ "ssarules: error: ".toList ++ b ∧ (a = [] ∨ a.getLast? = some '\n')

/-- Some correct solver, whatever it does after errors, can have answered `unsat` when given the file. -/
def AnswersUnsat (bytes : List UInt8) : Prop := ∃ keep q, AskedFile keep bytes q ∧ ¬ Sat q

/-- All input files parse, and for every simple rule in them and every choice of its alternatives: the rule is in the supported fragment, and valid. -/
def Verified (lib : GoLib) (inputs : List Input) : Prop :=
  ∀ inp ∈ inputs, ∃ f, parseBytes lib inp.data = .ok f ∧ ∀ r ∈ f.rules, Simple r → ∀ i < count (ruleSizes r),
    (∃ so, RuleFragment so (pickRule i r)) ∧ Valid (pickRule i r)

/-- The script files with the numbers below `N` in the output directory: a solver can have answered `unsat` for each that exists. -/
def AllUnsat (cwd : List Str) (outdir : Str) (N : Nat) (d : Disk) : Prop :=
  ∀ i < N, ∀ p bs, IsScriptPlace cwd outdir i p → d p = some bs → AnswersUnsat bs

end Verif.Spec

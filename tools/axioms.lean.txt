import Lean
import Verif
open Lean Elab Command
run_cmd do
  let env ← getEnv
  let mut names : Array Name := #[]
  for (n, ci) in env.constants.toList do
    if (`Verif.Props).isPrefixOf n && !n.isInternal then
      if let .thmInfo _ := ci then
        let s := n.componentsRev.head!.toString
        if s.length > 3 && s.front == 'C' && (s.toList[1]!).isDigit then names := names.push n
  for n in names.qsort (·.toString < ·.toString) do
    let ax ← liftCoreM (collectAxioms n)
    logInfo m!"{n} {ax.qsort (·.toString < ·.toString)}"

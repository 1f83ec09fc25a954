import Verif.Model.Ast
/-!
# Model of pass/alt.go
-/
namespace Verif

/-- `xs[i]`: panics when out of range. (pass/alt.go:54, 57, 112, 117, 167) -/
def getIdx {α : Type} (xs : List α) (i : Nat) : Res α :=
  match xs[i]? with
  | some x => .ok x
  | none => .panic

/-- A loop `for … { y, err := f(x); if err != nil { return nil, err }; ys = append(ys, y) }`. (pass/alt.go:20-28) -/
def forRes {α β : Type} (f : α → Res β) : List α → Res (List β)
  | [] => .ok []
  | x :: xs => do
    let y ← f x
    let ys ← forRes f xs
    .ok (y :: ys)

/-- `resolvecounts` (pass/alt.go:177-188).  The arguments are lengths, hence never negative. -/
def resolvecounts (m n : Nat) : Res Nat :=
  if m = 0 ∨ n = 0 then .err (.assertion "expect positive counts".toList)
  else if m > 1 ∧ n > 1 ∧ m ≠ n then .err (.incompatible m n)
  else if m > n then .ok m
  else .ok n

/-- `idx` (pass/alt.go:190-195). -/
def idx (i n : Nat) : Nat := if n = 1 then 0 else i

/-- The loop determining the alternate count (pass/alt.go:143-153). -/
def partsCount : Nat → List OpPart → Res Nat
  | n, [] => .ok n
  | n, .alt cs :: ps => do
    let n' ← resolvecounts n cs.length
    partsCount n' ps
  | n, _ :: ps => partsCount n ps

/-- The inner loop building `alts[i]` (pass/alt.go:159-172); `acc` is `alts[i]` so far. -/
def buildAlt (i : Nat) : Str → List OpPart → Res Str
  | acc, [] => .ok acc
  | acc, .opcode s :: ps => buildAlt i (acc ++ s) ps
  | acc, .alt cs :: ps => do
    let c ← getIdx cs i
    buildAlt i (acc ++ c) ps
  | _, .nil :: _ => .err (.unexpectedType nilType)

/-- `expandopcodeparts` (pass/alt.go:138-175). -/
def expandopcodeparts (parts : List OpPart) : Res (List Str) :=
  if parts.length = 0 then .err (.assertion "empty opcode parts".toList)
  else do
    let n ← partsCount 1 parts
    if n = 1 then
      .err (.assertion "multi-part opcode should represent multiple alternatives".toList)
    else
      forRes (fun i => buildAlt i [] parts) (List.range n)

/-- `expandop` (pass/alt.go:127-136). -/
def expandop : Op → Res (List Str)
  | .opcode s => .ok [s]
  | .parts ps => expandopcodeparts ps
  | .nil => .err (.unexpectedType nilType)

/-- The body of the loop generating alternate S-expressions (pass/alt.go:104-122): a clone of the original with opcode
and arguments replaced. -/
def buildSExpr (h : Hdr) (opcodes : List Str) (expargs : List (List Value)) (i : Nat) : Res Value := do
  let o ← getIdx opcodes (idx i opcodes.length)
  let args ← forRes (fun alts => getIdx alts (idx i alts.length)) expargs
  .ok (.sexpr { h with op := .opcode o } args)

mutual
/-- `expandvalue` (pass/alt.go:64-73) and `expandsexpr` (pass/alt.go:75-125). -/
def expandvalue : Value → Res (List Value)
  | .sexpr h args => do
    let opcodes ← expandop h.op
    let (n, expargs) ← expandargs opcodes.length args
    if n = 1 then .ok [.sexpr h args]
    else forRes (buildSExpr h opcodes expargs) (List.range n)
  | .expr e => .ok [.expr e]
  | .var v => .ok [.var v]
  | .nil => .err (.unexpectedType nilType)
/-- The loop over the arguments (pass/alt.go:85-98): resolves the count so far with each argument's count. -/
def expandargs : Nat → List Value → Res (Nat × List (List Value))
  | n, [] => .ok (n, [])
  | n, a :: as => do
    let exparg ← expandvalue a
    let n' ← resolvecounts n exparg.length
    let (m, rest) ← expandargs n' as
    .ok (m, exparg :: rest)
end

/-- The body of the loop generating alternate rules (pass/alt.go:52-59). -/
def buildRule (r : Rule) (ms rs : List Value) (i : Nat) : Res Rule := do
  let m ← getIdx ms (idx i ms.length)
  let v ← getIdx rs (idx i rs.length)
  .ok { «match» := m, condition := r.condition, block := r.block, result := v }

/-- `expandrule` (pass/alt.go:31-62). -/
def expandrule (r : Rule) : Res (List Rule) := do
  let ms ← expandvalue r.match
  let rs ← expandvalue r.result
  let n ← resolvecounts ms.length rs.length
  if n = 1 then .ok [r]
  else forRes (buildRule r ms rs) (List.range n)

/-- `expandrules` (pass/alt.go:19-29). -/
def expandrules (rs : List Rule) : Res (List Rule) := do
  let xss ← forRes expandrule rs
  .ok xss.flatten

/-- `ExpandAlternates` (pass/alt.go:10-17): `ok f` is a nil error with the file updated to `f`;
on an error the file is unchanged (the heap-level statement is in `Model/ExpandHeap.lean`). -/
def expandAlternates (f : File) : Res File := do
  let rs ← expandrules f.rules
  .ok { rules := rs }

end Verif

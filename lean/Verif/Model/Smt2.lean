import Verif.Model.Printer
/-!
# Model of package smt2 (smt2/generate.go, smt2/ops.go)
-/
namespace Verif

/-- The `go/types` basic types that occur in the operation table (smt2/ops.go:37-76).  No other types ever
reach the generator; `gotypes.Identical` on basic types is equality. -/
inductive GoType where
  | bool
  | int8 | int16 | int32 | int64
  | uint8 | uint16 | uint32 | uint64
  deriving DecidableEq, Repr

/-- `value` (smt2/ops.go:12-15) -/
structure SmtValue where
  expr : Str
  type : GoType
  deriving DecidableEq, Repr

/-- `signature` (smt2/ops.go:119-123) -/
structure Signature where
  result : GoType
  params : List GoType
  dflt : Bool := false
  deriving DecidableEq, Repr

/-- `simple` (smt2/ops.go:145-149).  The field `arity` is never set by `buildoperations` (smt2/ops.go:109-112), so it is 0. -/
structure Operation where
  arity : Nat := 0
  signatures : List Signature
  format : Str
  deriving DecidableEq, Repr

/-- `unary` (smt2/ops.go:137-139) -/
def unaryT (k : GoType) : List GoType := [k]
/-- `binary` (smt2/ops.go:141-143) -/
def binaryT (k : GoType) : List GoType := [k, k]

/-- `variant` (smt2/ops.go:31-35); its `arity` is not used. -/
structure Variant where
  suffix : Str
  signatures : List Signature

/-- smt2/ops.go:39-42 -/
def u8 : Variant := { suffix := "8".toList, signatures := [
  { result := .int8, params := unaryT .int8, dflt := true }, { result := .uint8, params := unaryT .uint8 }] }
/-- smt2/ops.go:43-46 -/
def u16 : Variant := { suffix := "16".toList, signatures := [
  { result := .int16, params := unaryT .int16, dflt := true }, { result := .uint16, params := unaryT .uint16 }] }
/-- smt2/ops.go:47-50 -/
def u32 : Variant := { suffix := "32".toList, signatures := [
  { result := .int32, params := unaryT .int32, dflt := true }, { result := .uint32, params := unaryT .uint32 }] }
/-- smt2/ops.go:51-54 -/
def u64 : Variant := { suffix := "64".toList, signatures := [
  { result := .int64, params := unaryT .int64, dflt := true }, { result := .uint64, params := unaryT .uint64 }] }
/-- smt2/ops.go:57-60 -/
def b8 : Variant := { suffix := "8".toList, signatures := [
  { result := .int8, params := binaryT .int8, dflt := true }, { result := .uint8, params := binaryT .uint8 }] }
/-- smt2/ops.go:61-64 -/
def b16 : Variant := { suffix := "16".toList, signatures := [
  { result := .int16, params := binaryT .int16, dflt := true }, { result := .uint16, params := binaryT .uint16 }] }
/-- smt2/ops.go:65-68 -/
def b32 : Variant := { suffix := "32".toList, signatures := [
  { result := .int32, params := binaryT .int32, dflt := true }, { result := .uint32, params := binaryT .uint32 }] }
/-- smt2/ops.go:69-72 -/
def b64 : Variant := { suffix := "64".toList, signatures := [
  { result := .int64, params := binaryT .int64, dflt := true }, { result := .uint64, params := binaryT .uint64 }] }
/-- smt2/ops.go:73-75 -/
def bbool : Variant := { suffix := "B".toList, signatures := [{ result := .bool, params := binaryT .bool }] }
/-- The variant of `Not` (smt2/ops.go:106). -/
def ubool : Variant := { suffix := [], signatures := [{ result := .bool, params := unaryT .bool }] }

/-- The list of families (smt2/ops.go:78-107): name, variants, format. -/
def families : List (Str × List Variant × Str) := [
  ("Add".toList, [b8, b16, b32, b64], "(bvadd %s %s)".toList),
  ("Sub".toList, [b8, b16, b32, b64], "(bvsub %s %s)".toList),
  ("And".toList, [b8, b16, b32, b64], "(bvand %s %s)".toList),
  ("Or".toList, [b8, b16, b32, b64], "(bvor %s %s)".toList),
  ("Xor".toList, [b8, b16, b32, b64], "(bvxor %s %s)".toList),
  ("Neg".toList, [u8, u16, u32, u64], "(bvneg %s)".toList),
  ("Com".toList, [u8, u16, u32, u64], "(bvnot %s)".toList),
  ("And".toList, [bbool], "(and %s %s)".toList),
  ("Or".toList, [bbool], "(or %s %s)".toList),
  ("Eq".toList, [bbool], "(= %s %s)".toList),
  ("Neq".toList, [bbool], "(not (= %s %s))".toList),
  ("Not".toList, [ubool], "(not %s)".toList)]

/-- The entries in the order in which `buildoperations` (smt2/ops.go:107-114) assigns them. -/
def operationEntries : List (Str × Operation) :=
  families.flatMap fun (name, variants, format) =>
    variants.map fun v => (name ++ v.suffix, { signatures := v.signatures, format := format })

/-- Lookup in the map `operations` (smt2/ops.go:26-29, 107-116): the last assignment for a key counts. -/
def operations (opcode : Str) : Option Operation :=
  (operationEntries.reverse.find? fun e => e.1 == opcode).map (·.2)

/-- `signature.match` (smt2/ops.go:125-135) -/
def Signature.matches (s : Signature) (params : List GoType) : Bool := params == s.params

/-- What `%s` prints for a basic type (smt2/ops.go:159). -/
def GoType.str : GoType → Str
  | .bool => "bool".toList
  | .int8 => "int8".toList
  | .int16 => "int16".toList
  | .int32 => "int32".toList
  | .int64 => "int64".toList
  | .uint8 => "uint8".toList
  | .uint16 => "uint16".toList
  | .uint32 => "uint32".toList
  | .uint64 => "uint64".toList

/-- `fmt.Errorf(prefix + "%w", err)`: the same error with a text in front. (smt2/generate.go:154-208) -/
def Res.wrap {α : Type} (pre : Str) : Res α → Res α
  | .ok a => .ok a
  | .err e => .err (.other (pre ++ e.text))
  | .panic => .panic

/-- `simple.Params` (smt2/ops.go:151-178); `none` is a nil type. -/
def Operation.params (s : Operation) (result : Option GoType) : Res (List (Option GoType)) :=
  match result with
  | some t =>
    match s.signatures.find? fun sig => t == sig.result with
    | some sig => .ok (sig.params.map some)
    | none => .err (.other ("invalid return type ".toList ++ t.str))
  | none =>
    match s.signatures with
    | [sig] => .ok (sig.params.map some)
    | _ =>
      match s.signatures.find? fun sig => sig.dflt with
      | some sig => .ok (sig.params.map some)
      | none => .ok (List.replicate s.arity none)

/-- `fmt.Sprintf(format, args...)` for formats whose only verb is `%s` and string arguments.  Surplus
arguments (which Go would report in the text) cannot occur, `sexpr` has checked their number (smt2/generate.go:188-190). -/
def sprintfS : Str → List Str → Str
  | [], _ => []
  | [c], _ => [c]
  | c :: d :: f, as =>
    if c = '%' ∧ d = 's' then
      match as with
      | a :: as => a ++ sprintfS f as
      | [] => "%!s(MISSING)".toList ++ sprintfS f []
    else c :: sprintfS (d :: f) as

/-- `simple.Evaluate` (smt2/ops.go:180-210): the last matching signature determines the type. -/
def Operation.evaluate (s : Operation) (args : List SmtValue) : Res SmtValue :=
  let expr := sprintfS s.format (args.map (·.expr))
  let params := args.map (·.type)
  match (s.signatures.filter (·.matches params)).getLast? with
  | none => .err (.other "cannot infer return type".toList)
  | some sig => .ok { expr := expr, type := sig.result }

/-- `generator` (smt2/generate.go:29-34): the buffer and the declared variables (a map, as an association list with
the newest last).  A `bytes.Buffer` never fails, so the field `err` is always nil and is left out. -/
structure GState where
  out : Str
  vars : List (Str × SmtValue)
  deriving Repr

/-- Generator methods: a state change with an error return.  After an error `Generate` returns no bytes (smt2/generate.go:23-25),
so the state is dropped. -/
abbrev GM (α : Type) := GState → Res (α × GState)

/-- `typesort` (smt2/generate.go:121-152) -/
def typesort : GoType → Str
  | .bool => "Bool".toList
  | .int8 | .uint8 => "(_ BitVec 8)".toList
  | .int16 | .uint16 => "(_ BitVec 16)".toList
  | .int32 | .uint32 => "(_ BitVec 32)".toList
  | .int64 | .uint64 => "(_ BitVec 64)".toList

/-- `generator.variable` (smt2/generate.go:93-119) -/
def gvariable (v : Str) (t : Option GoType) : GM SmtValue := fun st =>
  match st.vars.find? fun e => e.1 == v with
  | some (_, val) =>
    match t with
    | some t => if val.type ≠ t then .err (.other ("inconsistent types for variable ".toList ++ v)) else .ok (val, st)
    | none => .ok (val, st)
  | none =>
    match t with
    | none => .err (.other ("declare ".toList ++ v ++ ": cannot deduce type".toList))
    | some t =>
      let val : SmtValue := { expr := v, type := t }
      .ok (val, { out := st.out ++ "(declare-const ".toList ++ v ++ [' '] ++ typesort t ++ ")\n".toList, vars := st.vars ++ [(v, val)] })

/-- The unsupported features of `generator.sexpr` (smt2/generate.go:155-169). -/
def unsupported (h : Hdr) : Option Err :=
  if h.binding ≠ [] then some (.notSupported "sexpr binding".toList)
  else if h.type ≠ [] then some (.notSupported "sexpr type field".toList)
  else if h.auxInt.isSome then some (.notSupported "sexpr auxint field".toList)
  else if h.aux.isSome then some (.notSupported "sexpr aux field".toList)
  else if h.ellipsis then some (.notSupported "sexpr ellipsis".toList)
  else if h.trailing then some (.notSupported "sexpr trailing".toList)
  else none

mutual
/-- `generator.eval` (smt2/generate.go:80-91) and `generator.sexpr` (smt2/generate.go:154-208). -/
def geval : Value → Option GoType → GM SmtValue
  | .var v, t, st => gvariable v t st
  | .sexpr h args, t, st =>
    match unsupported h with
    | some e => .err e
    | none =>
      match h.op with
      | .opcode opcode =>
        match operations opcode with
        | none => .err (.notSupported ("opcode ".toList ++ opcode))
        | some op => do
          let params ← (op.params t).wrap (opcode ++ ": ".toList)
          if params.length ≠ args.length then
            .err (.other (opcode ++ ": expect ".toList ++ natStr params.length ++ " arguments got ".toList ++ natStr args.length))
          else do
            let (vs, st') ← gevals opcode 0 args params st
            let v ← (op.evaluate vs).wrap (opcode ++ ": ".toList)
            .ok (v, st')
      | _ => .err (.other "unexpanded opcode".toList)
  | .expr _, _, _ => .err (.unexpectedType "*ast.Expr".toList)
  | .nil, _, _ => .err (.unexpectedType nilType)
/-- The loop over the arguments (smt2/generate.go:192-199), from index `i` on; indexing `params[i]` out of range panics. -/
def gevals (opcode : Str) : Nat → List Value → List (Option GoType) → GM (List SmtValue)
  | _, [], _, st => .ok ([], st)
  | _, _ :: _, [], _ => .panic
  | i, a :: as, p :: ps, st => do
    let (v, st') ← (geval a p st).wrap (opcode ++ ": evaluate argument ".toList ++ natStr i ++ ": ".toList)
    let (vs, st'') ← gevals opcode (i + 1) as ps st'
    .ok (v :: vs, st'')
end

/-- `strings.ReplaceAll(s, "\n", "\n; ")` (smt2/generate.go:46) -/
def replaceNewlines (s : Str) : Str := s.flatMap fun c => if c = '\n' then "\n; ".toList else [c]

/-- `Generate` and `generator.generate` (smt2/generate.go:16-27, 36-78; `printf`, `seterror`: 210-222) -/
def generate (r : Rule) : Res Str := do
  let out := "(set-info :smt-lib-version 2.6)\n".toList ++ "(set-logic QF_BV)\n".toList
  let rule ← printBytes (.rule r)
  let out := out ++ "; ".toList ++ replaceNewlines rule ++ "\n".toList
  let (m, st) ← geval r.match none { out := out, vars := [] }
  if r.condition.isSome then .err (.notSupported "rule conditions".toList)
  else if r.block ≠ [] then .err (.notSupported "rule blocks".toList)
  else do
    let (res, st) ← geval r.result (some m.type) st
    .ok (st.out ++ "(assert (not (= ".toList ++ m.expr ++ [' '] ++ res.expr ++ ")))\n".toList ++ "(check-sat)\n".toList ++ "(exit)\n".toList)

end Verif

/- Runs the model on the repo's own test data and compares with the expectations of its tests (no Go code is run):
   printer_test.go TestGolden and TestRoundtrip, parse_test.go TestFiles, alt_test.go (all three), rules_test.go.
   Usage: cp tools/conformance.lean.txt /tmp/c.lean; cd lean; lake env lean --run /tmp/c.lean 386splitload decArgs dec AMD64splitload dec64 Wasm MIPS ...
   This is a test of the transcription, not part of any proof.  The time is quadratic in the file (ARM64: about an hour). -/
import Verif.Props.Roundtrip
open Verif Verif.Spec Verif.Props

def lib : GoLib := refLib asciiGo
def parseStr (s : String) : Res File := parseBytes lib (utf8 s.toList)
def printed (f : File) : Option Str := match printBytes (.file f) with | .ok s => some s | _ => none
def expanded (s : String) : String :=
  match parseStr s with
  | .ok f => match expandAlternates f with
    | .ok f => String.ofList ((printed f).getD [])
    | .err e => "error: " ++ String.ofList e.text
    | .panic => "panic"
  | _ => "not parsed"
def normal (s : String) : String := match parseStr s with | .ok f => String.ofList ((printed f).getD []) | _ => "not parsed"

/-- alt_test.go:14-116: input, and the expected rules or error. -/
def altCases : List (String × String) := [
  ("(Add64 x y) => (Add64 y x)\n", normal "(Add64 x y) => (Add64 y x)\n"),
  ("(Mul(32|64)F x (Const(32|64)F [1])) => x\n", normal "(Mul32F x (Const32F [1])) => x\n(Mul64F x (Const64F [1])) => x\n"),
  ("(Not (Less(64|32|16|8) x y)) => (Leq(64|32|16|8) y x)\n",
    normal "(Not (Less64 x y)) => (Leq64 y x)\n(Not (Less32 x y)) => (Leq32 y x)\n(Not (Less16 x y)) => (Leq16 y x)\n(Not (Less8  x y)) => (Leq8  y x)\n"),
  ("(Mul(32|64)F x (Const(8|16|32|64)F [1])) => x\n", "error: incompatible alternative counts 2 and 4"),
  ("(Mul(8|16|32|64)(L|Q) x) => x\n", "error: incompatible alternative counts 4 and 2"),
  ("(Mul(64|32|16|8) ...) => (MUL(Q|L|L) ...)\n", "error: incompatible alternative counts 4 and 3"),
  ("(Opcode (Add(1|2)To(A|B|C) x x) x) => x\n", "error: incompatible alternative counts 2 and 3"),
  ("(Opcode x y) => (Mul(8|16|32|64)(L|Q) x y)\n", "error: incompatible alternative counts 4 and 2")]

/-- rules_test.go:18-48. -/
def predCases : List (String × (Rule → Option Bool)) := [
  ("(MOVWUreg x:(MOVBUload _ _)) => (MOVDreg x)", hasBinding), ("(AddPtr <t> x (Const64 [c])) => (OffPtr <t> [c] x)", hasType),
  ("(EqPtr (Addr {a} _) (Addr {b} _)) => (ConstBool [a == b])", hasAux), ("(SignExt16to32 ...) => (MOVHreg ...)", hasEllipsis),
  ("(SelectN [2] (MakeResult a b c ___)) => c", hasTrailing)]

/-- parse_test.go:35-53 -/
def countRules (text : String) : Nat :=
  ((text.splitOn "\n").map fun l => (((l.splitOn "//").headD "").splitOn "=>").length - 1).sum

def main (args : List String) : IO UInt32 := do
  let mut bad := 0
  for (i, e) in altCases do
    unless expanded i == e do IO.eprintln s!"alt_test: {i} gives {expanded i}"; bad := bad + 1
  for (s, p) in predCases do
    let ok := match parseStr s with | .ok ⟨[r]⟩ => p r == some true | _ => false
    unless ok do IO.eprintln s!"rules_test: {s}"; bad := bad + 1
  for n in args do
    let d ← IO.FS.readBinFile s!"/repo/internal/testdata/{n}.rules"
    let g ← IO.FS.readBinFile s!"/repo/printer/testdata/{n}.golden"
    match parseBytes lib d.toList with
    | .ok f =>
      let count := f.rules.length == countRules (String.fromUTF8! d)
      let s := (printed f).getD []
      let golden := utf8 s == g.toList
      let trip := match parseBytes lib (utf8 s) with | .ok f' => reprStr f' == reprStr f | _ => false
      let post := match expandAlternates f with | .ok f' => f'.rules.length | _ => 0
      unless count && golden && trip && post ≥ f.rules.length do bad := bad + 1
      IO.eprintln s!"{n}: {f.rules.length} rules, count {count}, golden {golden}, round trip {trip}, expanded to {post}"
    | .err e => IO.eprintln s!"{n}: parse failed {String.ofList e.text}"; bad := bad + 1
    | .panic => IO.eprintln s!"{n}: panic"; bad := bad + 1
  IO.eprintln s!"{bad} failures"
  return if bad = 0 then 0 else 1

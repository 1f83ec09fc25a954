import Verif.Proof.DumpTypes
import Verif.Props.Parse
/-!
# Properties of ast.Print, ast.Dump and ast.Fprint (C61)

A node `n` in memory is a value `t` with `Image n t` (or `TreeImage n t`, if no two of its pointers are equal).  `q` is what depends on the version of Go.
-/
namespace Verif.Props
open Verif Verif.Spec Verif.Proof Verif.Proof.Dump

/-! The examples: a table of printable characters, a rule, and the same rule with one expression in two places. -/

def dumpQ : QuoteTable := ⟨fun c => decide (32 ≤ c.toNat ∧ c.toNat < 127), by intro c h; simp; omega, true⟩

def dumpSame : GoExpr := .call (.ident 0 "f".toList) 0 [.ident 0 "c".toList] 0 0
def dumpRule : Rule :=
  { «match» := .sexpr { op := .parts [.opcode "Add".toList, .alt ["8".toList, "16".toList]], auxInt := some dumpSame } [.var "x".toList],
    condition := some (.binary (.ident 0 "c".toList) 0 .lss (.basicLit 0 .int "7".toList)), result := .sexpr { op := .opcode "Const".toList, auxInt := some dumpSame } [] }

theorem dump_example : astDump dumpQ (freshImage (.rule { «match» := .var "x".toList, block := "a\n\"".toList, result := .sexpr { op := .opcode "Const".toList } [] })) = .ok
    ("     0  *ast.Rule {\n     1  .  Match: x\n     2  .  Block: \"a\\n\\\"\"\n     3  .  Result: *ast.SExpr {\n     4  .  .  Binding: \n     5  .  .  Op: Const\n" ++
     "     6  .  .  Type: \n     7  .  .  Ellipsis: false\n     8  .  .  Trailing: false\n     9  .  }\n    10  }\n").toList := by
  decide +kernel

/-- Two rules that are one object. -/
def dumpTwice : Node := .file ⟨[⟨.var "x".toList, none, [], .var "x".toList⟩, ⟨.var "x".toList, none, [], .var "x".toList⟩]⟩
def sharedRule : RVal := .struct "ast.Rule".toList (mkFields [("Match".toList, .other "x".toList), ("Condition".toList, .nil), ("Block".toList, .string []), ("Result".toList, .other "x".toList)])
def sharedFile : RVal := .struct "ast.File".toList (mkFields [("Rules".toList, .slice "[]*ast.Rule".toList (mkVals [.ptr 8 sharedRule, .ptr 8 sharedRule]))])
def dumpShared : RVal := .ptr 7 sharedFile

theorem dump_shared_image : Image dumpTwice dumpShared := by
  refine ⟨rfl, fun a => if a = 7 then sharedFile else sharedRule, ?_⟩
  have h : inHeap (fun a => if a = 7 then sharedFile else sharedRule) sharedRule := ⟨trivial, trivial, trivial, trivial, trivial⟩
  exact ⟨rfl, ⟨⟨⟨rfl, h⟩, ⟨rfl, h⟩, trivial⟩, trivial⟩⟩

theorem dump_shared : astDump dumpQ dumpShared = .ok
    ("     0  *ast.File {\n     1  .  Rules: []*ast.Rule (len = 2) {\n     2  .  .  0: *ast.Rule {\n     3  .  .  .  Match: x\n     4  .  .  .  Block: \"\"\n" ++
     "     5  .  .  .  Result: x\n     6  .  .  }\n     7  .  .  1: *(obj @ 2)\n     8  .  }\n     9  }\n").toList := by decide +kernel

/-! ## Errors -/

/-- C61.  `Dump` never fails. -/
theorem C61_never_fails (q : QuoteTable) (t : RVal) : ∃ s, astDump q t = .ok s := by
  have h := (follows_fprint q noErr t).1
  refine ⟨(goFprint q noErr t).1.out.flatten, ?_⟩
  unfold astDump astFprint
  rw [show (fun _ => none) = noErr from rfl, h]

/-- C61.  `Fprint` makes a sequence of writes, which put together are the dump.  If none of them fails, it makes all of them and returns no error; else it stops at the first that fails
and returns its error. -/
theorem C61_writer (q : QuoteTable) (t : RVal) : ∃ all : List Str, astDump q t = .ok all.flatten ∧ ∀ ans : List Str → Option Err,
    ((∀ j, j < all.length → ans (all.take (j + 1)) = none) ∧ astFprint q ans t = (all, none)) ∨
    ∃ j e, j < all.length ∧ (∀ i, i < j → ans (all.take (i + 1)) = none) ∧ ans (all.take (j + 1)) = some e ∧ astFprint q ans t = (all.take (j + 1), some e) := by
  refine ⟨(goFprint q noErr t).1.out, ?_, ?_⟩
  · unfold astDump astFprint
    rw [show (fun _ => none) = noErr from rfl, (follows_fprint q noErr t).1]
  · intro ans
    obtain ⟨h0, new, hnew, h⟩ := follows_fprint q ans t
    have e : (goFprint q noErr t).1.out = new := by rw [hnew]; rfl
    rw [e]
    rcases h with ⟨h1, h2⟩ | ⟨j, er, hj, h1, h2, h3, h4⟩
    · left
      refine ⟨h2, ?_⟩
      unfold astFprint
      rw [h1, h0, e]
    · right
      refine ⟨j, er, hj, h4, h3, ?_⟩
      unfold astFprint
      rw [h1, h2]; rfl

example : astFprint dumpQ (fun w => if w.flatten.length < 30 then none else some (.other "disk full".toList)) (freshImage (.rule dumpRule)) =
    (["     0  ".toList, "*".toList, "ast.Rule {".toList, "\n".toList, "     1  ".toList, ".  ".toList], some (.other "disk full".toList)) := by decide +kernel

/-! ## Text -/

/-- C61.  The dump of an AST is the lines of the specification, each behind its number and its indentation; in particular, where an object occurs again there is the number of the
line on which it was written. -/
theorem C61_lines (q : QuoteTable) (n : Node) (t : RVal) (hn : NodeClear n) (ht : t.strip = n.rval) : astDump q t = .ok (renderLines 0 (dumpLines q t)) := by
  refine dump_lines q t ((flat_strip t).1 (by rw [ht]; exact node_flat hn)) ?_
  rintro rfl
  have := congrArg topType ht
  rw [top_node, top_strip, topType] at this
  cases n <;> first | exact hn.elim | exact absurd this (by simp [nodeType])
  all_goals simp

/-- C61.  What is dumped is of the types the packages declare: every struct has the declared fields in the declared order, and in every field and slice is a value of a type that
can be there. -/
theorem C61_declared (n : Node) (t : RVal) (hn : NodeClear n) (ht : t.strip = n.rval) : Fits nodeTypes t :=
  (fits_strip nodeTypes t).1 (by rw [ht]; exact fits_node hn)

/-- All kinds of Go expressions and literals. -/
def dumpKinds : GoExpr :=
  .call (.selector (.ident 0 "p".toList) 0 "q".toList) 0 [.basicLit 0 .int "1".toList, .basicLit 0 .float "1.5".toList, .basicLit 0 .imag "2i".toList, .basicLit 0 .char "'c'".toList,
    .basicLit 0 .string "`s`".toList, .paren 0 (.star 0 (.unary 0 .not (.ident 0 "y".toList))) 0, .binary (.ident 0 "a".toList) 0 .add (.ident 0 "b".toList)] 0 0

example : (lay dumpQ 0 0 [] (freshImage (.expr dumpKinds))).1.2.map (fun l => String.ofList l.2) =
  ["Expr: *ast.CallExpr {", "Fun: *ast.SelectorExpr {", "X: *ast.Ident {", "NamePos: 0", "Name: \"p\"", "}", "Sel: *ast.Ident {", "NamePos: 0", "Name: \"q\"", "}", "}", "Lparen: 0",
   "Args: []ast.Expr (len = 7) {", "0: *ast.BasicLit {", "ValuePos: 0", "Kind: INT", "Value: \"1\"", "}", "1: *ast.BasicLit {", "ValuePos: 0", "Kind: FLOAT", "Value: \"1.5\"", "}",
   "2: *ast.BasicLit {", "ValuePos: 0", "Kind: IMAG", "Value: \"2i\"", "}", "3: *ast.BasicLit {", "ValuePos: 0", "Kind: CHAR", "Value: \"'c'\"", "}",
   "4: *ast.BasicLit {", "ValuePos: 0", "Kind: STRING", "Value: \"`s`\"", "}", "5: *ast.ParenExpr {", "Lparen: 0", "X: *ast.StarExpr {", "Star: 0", "X: *ast.UnaryExpr {", "OpPos: 0", "Op: !",
   "X: *ast.Ident {", "NamePos: 0", "Name: \"y\"", "}", "}", "}", "Rparen: 0", "}", "6: *ast.BinaryExpr {", "X: *ast.Ident {", "NamePos: 0", "Name: \"a\"", "}", "OpPos: 0", "Op: +",
   "Y: *ast.Ident {", "NamePos: 0", "Name: \"b\"", "}", "}", "}", "Ellipsis: 0", "Rparen: 0", "}", "}"] := by decide +kernel

example : NodeClear (.expr dumpKinds) := by
  simp [NodeClear, dumpKinds, GoClear, GoClears, TokClear]

/-- C61.  Strings are shown as string literals of Go that stand for them; a character that is printable and neither `"` nor `\` stands for itself, for the others it is fixed how long the escape is. -/
theorem C61_literals (q : QuoteTable) (s : Str) : StringLiteral (quoteStr q s) s ∧ quoteStr q s = '"' :: s.flatMap (fun c => quoteStr q [c] |>.drop 1 |>.dropLast) ++ ['"'] ∧
    ∀ c, (quoteStr q [c]).length = 2 +
      if c = '"' ∨ c = '\\' then 2 else if q.printable c = true then 1 else if 7 ≤ c.toNat ∧ c.toNat ≤ 13 then 2
      else if c.toNat ≤ 0x1f ∨ c.toNat = 0x7f ∧ q.delX = true then 4 else if c.toNat ≤ 0xffff then 6 else 10 := by
  have h1 : ∀ c, (quoteStr q [c] |>.drop 1 |>.dropLast) = quoteChar q c := by intro c; simp [quoteStr, List.dropLast_append]
  refine ⟨quoteStr_literal q s, ?_, ?_⟩
  · simp only [h1]; rfl
  · intro c
    rw [← quoteChar_length]
    simp [quoteStr]
    omega

/-- a literal stands for one string only -/
example (q : QuoteTable) (s s' : Str) (h : quoteStr q s = quoteStr q s') : s = s' := quoteStr_inj q h

example : quoteStr dumpQ "a\"b\n\x01é😀".toList = "\"a\\\"b\\n\\x01\\u00e9\\U0001f600\"".toList := by decide +kernel

/-! ## What a dump tells -/

/-- C61.  ASTs with the same dump are the same, whatever they share. -/
theorem C61_injective (q : QuoteTable) (n n' : Node) (t t' : RVal) (hn : NodeClear n) (hn' : NodeClear n') (ht : Image n t) (ht' : Image n' t') (h : astDump q t = astDump q t') :
    n = n' := dump_node hn hn' ht ht' h

/-- C61.  Without sharing, the dump is the same exactly if the AST is. -/
theorem C61_unshared (q : QuoteTable) (n n' : Node) (t t' : RVal) (hn : NodeClear n) (hn' : NodeClear n') (ht : TreeImage n t) (ht' : TreeImage n' t') :
    astDump q t = astDump q t' ↔ n = n' := by
  constructor
  · exact dump_node hn hn' (tree_image ht) (tree_image ht')
  · rintro rfl
    unfold astDump
    rw [same_fprint q _ (ht.1.trans ht'.1.symm) ht.2 ht'.2]

/-- C61.  Without sharing, what is written and returned depends on nothing but the AST (any AST), also if writes fail. -/
theorem C61_determined (q : QuoteTable) (ans : List Str → Option Err) (n : Node) (t t' : RVal) (ht : TreeImage n t) (ht' : TreeImage n t') : astFprint q ans t = astFprint q ans t' :=
  same_fprint q ans (ht.1.trans ht'.1.symm) ht.2 ht'.2

/-- Every AST can be in memory without sharing. -/
theorem C61_images (n : Node) : ∃ t, TreeImage n t ∧ Image n t := ⟨_, fresh_tree n, tree_image (fresh_tree n)⟩

/-- C61.  Files that parse, and in whose types are no line breaks: if the dumps are the same, the ASTs are. -/
theorem C61_parsed (q : QuoteTable) (lib : GoLib) (bs bs' : List UInt8) (f f' : File) (h : parseBytes lib bs = .ok f) (h' : parseBytes lib bs' = .ok f')
    (ho : ∀ r ∈ f.rules ++ f'.rules, ∀ o ∈ ruleToks r, TokClear o) (hy : ∀ r ∈ f.rules ++ f'.rules, ∀ y ∈ ruleTypes r, '\n' ∉ y)
    (t t' : RVal) (ht : Image (.file f) t) (ht' : Image (.file f') t') (hd : astDump q t = astDump q t') : f = f' := by
  have := dump_node (n := .file f) (n' := .file f') (fun r hr => rule_ok (parse_wf h r hr) (ho r (by simp [hr])) (hy r (by simp [hr])))
    (fun r hr => rule_ok (parse_wf h' r hr) (ho r (by simp [hr])) (hy r (by simp [hr]))) ht ht' hd
  injection this

/-! The hypotheses are met: the rules of the examples are clear. -/

example : NodeClear (.rule dumpRule) ∧ NodeClear dumpTwice := by
  have p : ∀ s : Str, (∀ c ∈ s, isWordChar c = true) → PlainText s := fun s => word_plain
  refine ⟨⟨?_, ?_, ?_⟩, ?_⟩
  · refine ⟨by decide, ?_, by decide, ?_, trivial, ?_⟩
    · intro x hx
      rcases List.mem_cons.1 hx with rfl | hx
      · exact p _ (by decide)
      · rcases List.mem_cons.1 hx with rfl | hx
        · intro c hc
          rcases List.mem_cons.1 hc with rfl | hc
          · exact p _ (by decide)
          · rcases List.mem_cons.1 hc with rfl | hc
            · exact p _ (by decide)
            · cases hc
        · cases hx
    · exact ⟨trivial, ⟨by simp, trivial⟩, trivial⟩
    · exact ⟨⟨by simp, p _ (by decide)⟩, trivial⟩
  · exact ⟨trivial, trivial, trivial⟩
  · exact ⟨by decide, p _ (by decide), by decide, ⟨trivial, ⟨by simp, trivial⟩, trivial⟩, trivial, trivial⟩
  · intro r hr
    have : r = ⟨.var "x".toList, none, [], .var "x".toList⟩ := by
      rcases List.mem_cons.1 hr with rfl | hr
      · rfl
      · rcases List.mem_cons.1 hr with rfl | hr
        · rfl
        · cases hr
    subst this
    exact ⟨p _ (by decide), trivial, p _ (by decide)⟩

/-- A file that parses, with its types and operators. -/
example : (match parseBytes demoLib (utf8 "(A <t> (B x)) && a<b => x\n".toList) with
    | .ok f => f.rules.map fun r => (ruleTypes r, ruleToks r)
    | _ => []) = [(["t".toList, []], [.lss])] ∧ TokClear .lss := ⟨by decide +kernel, trivial⟩

/-! Without the condition on types it is wrong: a type may have line breaks, and so pretend to be other fields. -/

def forgedA : List UInt8 := utf8 "(A <t> x) => x\n".toList
def forgedB : List UInt8 := utf8 "(A <t\nArgs: []ast.Value (len = 1) {\n.  0: x\n}>) => x\n".toList

def dumpOf (q : QuoteTable) : Res File → Res Str
  | .ok f => astDump q (freshImage (.file f))
  | _ => .panic

def argsOf : Res File → Option (List Nat)
  | .ok f => some (f.rules.map fun r => match r.match with | .sexpr _ args => args.length | _ => 0)
  | _ => none

/-- C61.  Two rules, one with an argument and one without, and the dump of both is the same. -/
theorem C61_forged : argsOf (parseBytes demoLib forgedA) = some [1] ∧ argsOf (parseBytes demoLib forgedB) = some [0] ∧
    dumpOf dumpQ (parseBytes demoLib forgedA) = dumpOf dumpQ (parseBytes demoLib forgedB) := by
  refine ⟨?_, ?_, ?_⟩ <;> decide +kernel

/-- An opcode and a variable by themselves look the same. -/
example : astDump dumpQ (freshImage (.opcode "x".toList)) = astDump dumpQ (freshImage (.var "x".toList)) := by decide +kernel

end Verif.Props

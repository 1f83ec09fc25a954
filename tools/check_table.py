"""Compare the table `gRules` of lean/Verif/Model/Grammar.lean, and the notations of Model/PegErr.lean, with the composite literal `g` of
/repo/parse/internal/parser/zparser.go, entry by entry.  Positions are ignored.  Needs a built lean/.  A test of the transcription, not part of any proof."""
import ast, os, re, subprocess, tempfile
here = os.path.dirname(os.path.abspath(__file__))
src = open("/repo/parse/internal/parser/zparser.go").read()
src = src[src.index("var g = &grammar{"):]
tok = re.compile(r"""\s+|("(?:[^"\\]|\\.)*"|'(?:[^'\\]|\\.)*'|\(\*parser\)\.\w+|[&]?\[\]\*?\w+(?:\{\})?|&?\w+|[{}:,=])""")
toks, i = [], len("var g = ")
while True:
    m = tok.match(src, i)
    i = m.end()
    if m.group(1) is None: continue
    toks.append(m.group(1))
    if toks.count("{") and toks.count("{") == toks.count("}"): break
p = 0
def val():
    """a Go value: literal, or ('name', [elements], {fields})"""
    global p
    t = toks[p]; p += 1
    if t == "{" or (p < len(toks) and toks[p] == "{"):
        name = "" if t == "{" else t.lstrip("&")
        if t != "{": p += 1
        els, fs = [], {}
        while toks[p] != "}":
            if toks[p + 1] == ":":
                k = toks[p]; p += 2; fs[k] = val()
            else: els.append(val())
            if toks[p] == ",": p += 1
        p += 1
        return (name, els, fs)
    if t[0] in "\"'": return ast.literal_eval(t)
    if t.startswith("(*parser)."): return t[len("(*parser).call"):]
    if t in ("true", "false"): return t == "true"
    return t
g = val()
def q(s): return "[" + " ".join(str(ord(c)) for c in s) + "]"
used = set()
def show(v):
    n, _, f = v
    f = {k: x for k, x in f.items() if k != "pos"}
    used.add(n)
    def fields(*ks): assert set(f) == set(ks), (n, set(f))
    if n == "actionExpr": fields("run", "expr"); return "(action %s %s)" % (f["run"], show(f["expr"]))
    if n == "anyMatcher": return "(any)"
    if n == "charClassMatcher":
        assert set(f) <= {"val", "chars", "ranges", "ignoreCase", "inverted"} and not f["ignoreCase"], f
        ch = f.get("chars", ("", [], {}))[1]; ra = f.get("ranges", ("", [], {}))[1]
        return "(cls %s %s %s %s)" % (q(ch), q(ra), "true" if f["inverted"] else "false", q(f["val"]))
    if n == "choiceExpr": fields("alternatives"); return "(choice%s)" % "".join(" " + show(e) for e in f["alternatives"][1])
    if n == "labeledExpr": fields("label", "expr"); return "(labeled %s %s)" % (f["label"], show(f["expr"]))
    if n == "litMatcher": fields("val", "ignoreCase", "want"); assert not f["ignoreCase"]; return "(lit %s %s)" % (q(f["val"]), q(f["want"]))
    if n in ("notExpr", "oneOrMoreExpr", "zeroOrMoreExpr", "zeroOrOneExpr"): fields("expr"); return "(%s %s)" % (n[:-4], show(f["expr"]))
    if n == "ruleRefExpr": fields("name"); return "(ruleRef %s)" % f["name"]
    if n == "seqExpr": fields("exprs"); return "(seq%s)" % "".join(" " + show(e) for e in f["exprs"][1])
    raise Exception(n)
assert set(g[2]) == {"rules"}
go = []
for r in g[2]["rules"][1]:
    assert set(r[2]) == {"name", "pos", "expr"}, r[2].keys()   # no displayName
    go.append(r[2]["name"] + " " + show(r[2]["expr"]))
lean = r'''
import Verif.Model.PegErr
open Verif
def last (s : String) : String := (s.splitOn ".").getLast!
def q (s : List Char) : String := "[" ++ " ".intercalate (s.map fun c => toString c.toNat) ++ "]"
partial def show' : PExpr → String
  | .action a e => "(action " ++ last (reprStr a) ++ " " ++ show' e ++ ")"
  | .any => "(any)"
  | .cls cs rs i => "(cls " ++ q cs ++ " " ++ q (rs.flatMap fun (a, b) => [a, b]) ++ " " ++ toString i ++ " " ++ q (clsWant cs rs i) ++ ")"
  | .choice es => "(choice" ++ String.join (es.map fun e => " " ++ show' e) ++ ")"
  | .labeled l e => "(labeled " ++ last (reprStr l) ++ " " ++ show' e ++ ")"
  | .lit v => "(lit " ++ q v ++ " " ++ q (litWant v) ++ ")"
  | .not e => "(not " ++ show' e ++ ")"
  | .oneOrMore e => "(oneOrMore " ++ show' e ++ ")"
  | .zeroOrMore e => "(zeroOrMore " ++ show' e ++ ")"
  | .zeroOrOne e => "(zeroOrOne " ++ show' e ++ ")"
  | .ruleRef n => "(ruleRef " ++ last (reprStr n) ++ ")"
  | .seq es => "(seq" ++ String.join (es.map fun e => " " ++ show' e) ++ ")"
def main : IO Unit := do
  for n in [RuleName.File, .Rule, .Value, .SExpr, .Operand, .Expr, .Call] do
    IO.println (last (reprStr n) ++ " " ++ show' (gRules n))
'''
with tempfile.NamedTemporaryFile("w", suffix=".lean", delete=False) as f: f.write(lean)
out = subprocess.run(["lake", "env", "lean", "--run", f.name], cwd=os.path.join(here, "../lean"), capture_output=True, text=True)
os.unlink(f.name)
model = out.stdout.strip().split("\n")
if model == go: print("same:", len(go), "rules,", sum(x.count("(") for x in go), "entries; kinds used:", " ".join(sorted(used)))
else:
    print("DIFFERENT", out.stderr)
    for a, b in zip(go, model):
        if a != b:
            k = next((k for k in range(min(len(a), len(b))) if a[k] != b[k]), 0)
            print("go   :", a[max(0, k - 40):k + 80]); print("model:", b[max(0, k - 40):k + 80])

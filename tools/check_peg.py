"""Compare the lines of `rulesPeg` in lean/Verif/Spec/PegFile.lean with /repo/parse/rules.peg."""
import ast, os, re
here = os.path.dirname(__file__)
s = open(os.path.join(here, "../lean/Verif/Spec/PegFile.lean")).read()
body = s[s.index("def rulesPeg"):s.rindex("]")]
lines = [ast.literal_eval(m) for m in re.findall(r'^  ("(?:[^"\\]|\\.)*")', body, re.M)]
src = open("/repo/parse/rules.peg").read()
print("same" if "".join(l + "\n" for l in lines) == src else "DIFFERENT", len(lines))

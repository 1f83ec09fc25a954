#!/usr/bin/env python3
"""Replaces the axiom table at the end of DESIGN.md by what Lean reports for the built project."""
import os, re, subprocess, shutil
here = os.path.dirname(os.path.abspath(__file__))
shutil.copy(os.path.join(here, "axioms.lean.txt"), "/tmp/_axioms.lean")
out = subprocess.run(["lake", "env", "lean", "/tmp/_axioms.lean"], cwd=os.path.join(here, "../lean"), capture_output=True, text=True).stdout
sets = {}
n = 0
for m in re.finditer(r"Verif\.Props\.(\S+)\s+\[([^\]]*)\]", out):
    sets.setdefault(re.sub(r"\s+", " ", m.group(2)), []).append(m.group(1)); n += 1
txt = ""
for k in sorted(sets, key=lambda k: len(sets[k])):
    txt += "* %s: %s\n" % (", ".join("`%s`" % x for x in k.split(", ")) if k else "no axioms", ", ".join(sorted(sets[k])))
p = os.path.join(here, "../DESIGN.md")
s = open(p).read()
mark = "<!-- axioms -->\n"
s = s[:s.index(mark) + len(mark)] + txt
open(p, "w").write(s)
print(n)

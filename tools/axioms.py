#!/usr/bin/env python3
"""Rewrite the table of axioms at the end of DESIGN.md: for every theorem named in MANIFEST.json, what `#print axioms` says.
Run after `lake build`."""
import json, os, re, subprocess
top = os.path.dirname(os.path.dirname(os.path.abspath(__file__)))
names = []
for c in json.load(open(top + "/MANIFEST.json"))["claims"]:
    for t in c["theorems"]:
        if t not in names:
            names.append(t)
src = "/tmp/print_axioms.lean"
open(src, "w").write("import Verif\n" + "".join("#print axioms " + t + "\n" for t in names))
out = subprocess.run(["lake", "env", "lean", src], cwd=top + "/lean", capture_output=True, text=True).stdout
out = re.sub(r"\n\s+", " ", out)
rows = {}
for line in out.splitlines():
    m = re.match(r"'(.*?)' depends on axioms: \[(.*)\]", line)
    if m:
        rows[m.group(1)] = m.group(2)
        continue
    m = re.match(r"'(.*?)' does not depend on any axioms", line)
    if m:
        rows[m.group(1)] = "none"
missing = [t for t in names if t not in rows]
assert not missing, missing
mark = "<!-- axioms -->\n"
text = open(top + "/DESIGN.md").read().split(mark)[0]
table = "| theorem | axioms |\n|---|---|\n" + "".join("| `%s` | %s |\n" % (t, rows[t]) for t in names)
open(top + "/DESIGN.md", "w").write(text + mark + table)

#!/usr/bin/env python3
"""Rewrites the section "Axioms per theorem" of DESIGN.md from the built project."""
import json, re, subprocess
names = []
for c in json.load(open("/verif/MANIFEST.json"))["claims"]:
    for t in c["theorems"]:
        if t not in [n for _, n in names]: names.append((c["property"], t))
src = "import Verif\n" + "".join(f"#print axioms {n}\n" for _, n in names)
open("/tmp/axioms.lean", "w").write(src)
out = subprocess.run(["lake", "env", "lean", "/tmp/axioms.lean"], cwd="/verif/lean", capture_output=True, text=True).stdout
out = re.sub(r"\n\s+", " ", out)
ax = {}
for m in re.finditer(r"'([^']+(?:'[^' ]*)*)' (does not depend on any axioms|depends on axioms: \[([^\]]*)\])", out):
    ax[m.group(1)] = m.group(3) or "none"
rows = ["| Property | Theorem | Axioms |", "|---|---|---|"]
for p, n in names: rows.append(f"| {p} | `{n}` | {ax.get(n, 'MISSING')} |")
d = open("/verif/DESIGN.md").read()
head = d.split("## Axioms per theorem")[0]
open("/verif/DESIGN.md", "w").write(head + "## Axioms per theorem\n\nGenerated by `tools/axioms.py` with `#print axioms`.\n\n" + "\n".join(rows) + "\n")
print(len(names), [n for _, n in names if n not in ax])

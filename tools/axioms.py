#!/usr/bin/env python3
"""Rewrite the appendix of DESIGN.md: the axioms of every theorem named in MANIFEST.json.

Run after `lake build` in /verif/lean."""
import json, re, subprocess, tempfile, os

root = os.path.dirname(os.path.dirname(os.path.abspath(__file__)))
claims = json.load(open(f"{root}/MANIFEST.json"))["claims"]
names = []
for c in claims:
    for t in c["theorems"]:
        if t not in names:
            names.append(t)
with tempfile.NamedTemporaryFile("w", suffix=".lean", delete=False) as f:
    f.write("import Verif\n" + "".join(f"#print axioms {t}\n" for t in names))
out = subprocess.run(["lake", "env", "lean", f.name], cwd=f"{root}/lean", capture_output=True, text=True).stdout
os.unlink(f.name)
ax = {}
for m in re.finditer(r"'(\S+)' (?:depends on axioms: \[([^\]]*)\]|does not depend on any axioms)", out):
    ax[m.group(1)] = m.group(2).replace("\n", " ") if m.group(2) else "none"
groups = {}
for t in names:
    groups.setdefault(", ".join(sorted(x.strip() for x in ax[t].split(","))), []).append(t)
text = ""
for g in sorted(groups):
    text += f"\nAxioms: {g}.\n\n"
    by = {}
    for t in groups[g]:
        ns, n = t.rsplit(".", 1)
        by.setdefault(ns, []).append(n)
    for ns in sorted(by):
        text += f"* `{ns}`: " + ", ".join(f"`{n}`" for n in by[ns]) + "\n"
p = f"{root}/DESIGN.md"
s = open(p).read()
mark = "<!-- axioms: generated by tools/axioms.py -->\n"
s = s.split(mark)[0] + mark + text
open(p, "w").write(s)

#!/usr/bin/env python3
"""Writes AXIOMS.md: the axioms each theorem of MANIFEST.json depends on (after `lake build`)."""
import json, os, re, subprocess, tempfile
root = os.path.join(os.path.dirname(os.path.abspath(__file__)), "..")
claims = json.load(open(os.path.join(root, "MANIFEST.json")))["claims"]
names = [(c["property"], t) for c in claims for t in c["theorems"]]
with tempfile.NamedTemporaryFile("w", suffix=".lean", delete=False) as f:
    f.write("import Verif\n")
    for _, t in names:
        f.write(f"#print axioms {t}\n")
out = subprocess.run(["lake", "env", "lean", f.name], cwd=os.path.join(root, "lean"), capture_output=True, text=True).stdout
os.unlink(f.name)
dep = {}
for m in re.finditer(r"'(\S+)' (?:depends on axioms: \[([^\]]*)\]|does not depend on any axioms)", out):
    dep[m[1]] = ", ".join(sorted((m[2] or "").replace("\n", " ").replace(" ", "").split(","))) if m[2] else "none"
with open(os.path.join(root, "AXIOMS.md"), "w") as f:
    f.write("# Axioms of each theorem\n\nGenerated by `tools/gen_axioms.py` from `#print axioms`.\n\n| property | theorem | axioms |\n|---|---|---|\n")
    for p, t in names:
        f.write(f"| {p} | `{t}` | {dep[t]} |\n")
print(len(names), sorted(set(dep.values())))

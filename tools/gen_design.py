#!/usr/bin/env python3
"""Rewrites the table of refuted properties in DESIGN.md from MANIFEST.json and properties.jsonl."""
import json, os
root = os.path.join(os.path.dirname(os.path.abspath(__file__)), "..")
claims = json.load(open(os.path.join(root, "MANIFEST.json")))["claims"]
props = {}
for l in open(os.path.join(root, "properties.jsonl")):
    d = json.loads(l)
    props[d["id"]] = d
rows = ["| id | property | what is false, and what is proved instead | refutation |", "|---|---|---|---|"]
for c in sorted(claims, key=lambda c: c["property"]):
    neg = [t.split(".")[-1] for t in c["theorems"] if "refuted" in t]
    if neg:
        rows.append(f"| {c['property']} | {props[c['property']]['title']} | {c.get('note', '')} | {', '.join('`' + x + '`' for x in neg)} |")
p = os.path.join(root, "DESIGN.md")
t = open(p).read()
b, e = "<!-- refuted:begin -->\n", "<!-- refuted:end -->"
i, j = t.index(b) + len(b), t.index(e)
open(p, "w").write(t[:i] + "\n".join(rows) + "\n" + t[j:])
print(len(rows) - 2)

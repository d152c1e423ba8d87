#!/usr/bin/env python3
"""Writes MANIFEST.json from the list below and checks that every named theorem is in the sources."""
import json, pathlib, re, sys

ROOT = pathlib.Path(__file__).resolve().parent.parent
CLAIMS = []


def c(prop, status, theorems, note=""):
    CLAIMS.append({"property": prop, "status": status,
                   "theorems": ["LAM.Props." + t for t in theorems.split()], "note": note})


exec((ROOT / "tools" / "claims.py").read_text())

names = set()
for f in (ROOT / "lean" / "Verif").rglob("*.lean"):
    for m in re.finditer(r"^theorem (\S+)", f.read_text(), re.M):
        names.add("LAM.Props." + m.group(1))
props = [json.loads(l)["id"] for l in (ROOT / "properties.jsonl").read_text().splitlines() if l.strip()]
bad = False
claimed = set()
for cl in CLAIMS:
    claimed.add(cl["property"])
    if cl["property"] not in props:
        print("unknown property", cl["property"]); bad = True
    for t in cl["theorems"]:
        if t not in names:
            print("missing theorem", t); bad = True
print("unclaimed:", [p for p in props if p not in claimed])
used = {t for cl in CLAIMS for t in cl["theorems"]}
print("theorems without claim:", sorted(n for n in names if re.match(r"LAM\.Props\.C\d\d", n) and n not in used))
CLAIMS.sort(key=lambda x: int(x["property"][1:]))
(ROOT / "MANIFEST.json").write_text(json.dumps({"claims": CLAIMS}, indent=1) + "\n")
sys.exit(1 if bad else 0)

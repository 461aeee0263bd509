#!/usr/bin/env python3
"""Writes MANIFEST.json from the table below; checks every name occurs as a theorem in lean/Verif."""
import json, re, glob, os
root = os.path.join(os.path.dirname(os.path.abspath(__file__)), "..")
H = "Mozolm.Hub."
C = {}
def claim(pid, status, theorems, note=""):
    C[pid] = {"property": pid, "status": status, "theorems": theorems, "note": note}
exec(open(os.path.join(root, "tools", "claims.py")).read())
names = set()
for f in glob.glob(os.path.join(root, "lean/Verif/**/*.lean"), recursive=True):
    ns = []
    for line in open(f):
        m = re.match(r"namespace (\S+)", line)
        if m: ns.append(m[1])
        m = re.match(r"end (\S+)", line)
        if m and ns and ns[-1] == m[1]: ns.pop()
        m = re.match(r"(?:private |protected )?theorem (\S+)", line)
        if m: names.add(".".join(ns + [m[1]]))
bad = [t for c in C.values() for t in c["theorems"] if t not in names]
assert not bad, bad
props = [json.loads(l)["id"] for l in open(os.path.join(root, "properties.jsonl"))]
print("unclaimed:", [p for p in props if p not in C])
missing = sorted(n for n in names if re.match(r".*\.C\d\d_", n) and not any(n in c["theorems"] for c in C.values()))
print("not listed:", missing)
json.dump({"claims": [C[p] for p in props if p in C]}, open(os.path.join(root, "MANIFEST.json"), "w"), indent=1)

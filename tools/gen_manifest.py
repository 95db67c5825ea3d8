#!/usr/bin/env python3
"""Writes MANIFEST.json from the table below.  Theorem names are collected from the Lean
sources: every `theorem Cnn_*` in a Props file belongs to property Cnn."""
import json, re, glob, os
root = os.path.dirname(os.path.dirname(os.path.abspath(__file__)))
names = {}
for f in sorted(glob.glob(os.path.join(root, "lean/Verif/**/*.lean"), recursive=True)):
    ns = "Remake"
    for line in open(f):
        m = re.match(r"theorem (C(\d+)_\w+)", line)
        if m:
            names.setdefault("C" + m.group(2), []).append(ns + "." + m.group(1))
status = {}
exec(open(os.path.join(root, "tools/status.py")).read())
claims = []
for pid in sorted(names):
    st, note = status.get(pid, ("proved", ""))
    claims.append({"property": pid, "status": st, "theorems": names[pid], "note": note})
for pid in sorted(status):
    if pid not in names:
        st, note = status[pid]
        claims.append({"property": pid, "status": st, "theorems": [], "note": note})
claims.sort(key=lambda c: int(c["property"][1:]))
json.dump({"claims": claims}, open(os.path.join(root, "MANIFEST.json"), "w"), indent=1)
print(len(claims), "claims", sum(len(c["theorems"]) for c in claims), "theorems")

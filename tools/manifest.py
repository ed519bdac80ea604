#!/usr/bin/env python3
"""Write MANIFEST.json from the table below. Theorems are collected by their C<nn>_ prefix from lean/Verif/Props."""
import json, re, glob, os
ROOT = os.path.dirname(os.path.dirname(os.path.abspath(__file__)))
STATUS = json.load(open(os.path.join(ROOT, "tools", "status.json")))
thms = {}
for f in sorted(glob.glob(os.path.join(ROOT, "lean/Verif/Props/*.lean"))):
    ns = []
    for line in open(f):
        m = re.match(r"namespace (\S+)", line)
        if m: ns.append(m.group(1))
        m = re.match(r"end (\S+)", line)
        if m and ns and ns[-1] == m.group(1): ns.pop()
        m = re.match(r"theorem (C\d\d)(_\S+)", line)
        if m: thms.setdefault(m.group(1), []).append(".".join(ns + [m.group(1) + m.group(2)]))
claims = []
for line in open(os.path.join(ROOT, "properties.jsonl")):
    p = json.loads(line)["id"]
    st = STATUS.get(p)
    if not st: continue
    claims.append({"property": p, "status": st[0], "theorems": thms.get(p, []), "note": st[1]})
json.dump({"claims": claims}, open(os.path.join(ROOT, "MANIFEST.json"), "w"), indent=1, ensure_ascii=False)
for c in claims: print(c["property"], c["status"], len(c["theorems"]))

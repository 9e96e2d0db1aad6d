#!/usr/bin/env python3
"""Regenerates MANIFEST.json: collects every theorem named Cnn_* under
lean/Verif/Props and groups it by property. Status and notes for each property
are in status.json."""
import json, re, glob, os
root = os.path.dirname(os.path.abspath(__file__))
props = [json.loads(l) for l in open(f"{root}/properties.jsonl") if l.strip()]
status = json.load(open(f"{root}/status.json"))
thms = {}
for f in sorted(glob.glob(f"{root}/lean/Verif/Props/*.lean")):
    ns = []
    for line in open(f):
        m = re.match(r"namespace\s+(\S+)", line)
        if m: ns.append(m.group(1))
        m = re.match(r"end\s+(\S+)", line)
        if m and ns and ns[-1] == m.group(1): ns.pop()
        m = re.match(r"theorem\s+((C\d\d)_\w+)", line)
        if m: thms.setdefault(m.group(2), []).append(".".join(ns + [m.group(1)]))
claims = []
for p in props:
    st = status.get(p["id"])
    t = thms.get(p["id"], [])
    if st is None or not t: 
        if st and st.get("status") == "not_applicable":
            claims.append({"property": p["id"], "status": "not_applicable", "theorems": [], "note": st["note"]})
        continue
    claims.append({"property": p["id"], "status": st["status"], "theorems": t, "note": st["note"]})
json.dump({"claims": claims}, open(f"{root}/MANIFEST.json", "w"), indent=1)
print(len(claims), "claims", sum(len(c["theorems"]) for c in claims), "theorems")

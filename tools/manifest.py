#!/usr/bin/env python3
"""Regenerate MANIFEST.json from the theorem names in lean/Verif/Props.

Status and note of each property come from tools/status.json."""
import json, re, glob, os
root = os.path.dirname(os.path.dirname(os.path.abspath(__file__)))
thms = {}
for f in sorted(glob.glob(root + "/lean/Verif/Props/*.lean")):
    ns = []
    for line in open(f):
        m = re.match(r"namespace (\S+)", line)
        if m: ns.append(m.group(1)); continue
        m = re.match(r"end (\S+)", line)
        if m and ns and ns[-1] == m.group(1): ns.pop(); continue
        m = re.match(r"(?:private )?theorem (C(\d\d+)_\S+)", line)
        if m:
            thms.setdefault("C" + m.group(2), []).append(".".join(ns + [m.group(1)]))
status = json.load(open(root + "/tools/status.json"))
props = [json.loads(l)["id"] for l in open(root + "/properties.jsonl") if l.strip()]
claims = []
for p in props:
    if p in thms and p in status:
        st = status[p]
        claims.append({"property": p, "status": st[0], "theorems": thms[p], "note": st[1]})
    elif p in thms:
        print("no status for", p)
    else:
        print("no theorem for", p)
for p in thms:
    if p not in props: print("unknown property", p)
json.dump({"claims": claims}, open(root + "/MANIFEST.json", "w"), indent=1)
open(root + "/MANIFEST.json", "a").write("\n")
print(len(claims), "claims", sum(len(c["theorems"]) for c in claims), "theorems")

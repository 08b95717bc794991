#!/usr/bin/env python3
"""Regenerates /verif/MANIFEST.json and checks that every named theorem exists in the sources."""
import json, os, re, sys
root = os.path.join(os.path.dirname(os.path.abspath(__file__)), "..")
C = {}
def c(pid, status, theorems, note):
    C[pid] = dict(property=pid, status=status, theorems=theorems, note=note)
exec(open(os.path.join(root, "tools", "claims.py")).read())
ids = [json.loads(l)["id"] for l in open(os.path.join(root, "properties.jsonl"))]
out = [C[i] for i in ids if i in C]
# check names
names = set()
for dp, dn, fn in os.walk(os.path.join(root, "lean", "Verif")):
    for f in fn:
        if f.endswith(".lean"):
            ns = []
            for line in open(os.path.join(dp, f)):
                m = re.match(r"namespace (\S+)", line)
                if m: ns.append(m.group(1)); continue
                m = re.match(r"end (\S+)", line)
                if m and ns and ns[-1] == m.group(1): ns.pop(); continue
                m = re.match(r"(?:protected |private |@\[[^\]]*\] )*theorem (\S+)", line)
                if m: names.add(".".join(ns + [m.group(1)]))
bad = [(e["property"], t) for e in out for t in e["theorems"] if t not in names]
if bad: print("UNKNOWN", bad); sys.exit(1)
json.dump({"claims": out}, open(os.path.join(root, "MANIFEST.json"), "w"), indent=1)
print(len(out), "claims; missing:", [i for i in ids if i not in C])

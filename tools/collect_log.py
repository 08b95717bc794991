#!/usr/bin/env python3
"""Rewrites seeded/LOG.jsonl from the result files in seeded/results/*.jsonl (output of mutate.py).
`seeded/tightened.json` maps seed ids to the theorems tightened after the seed; `seeded/notes.json` maps seed ids to remarks.
`evidence` says how much the failure shows: a lemma or a claimed theorem that no longer builds may only mean that its proof script broke, while its
statement may still be true of the edited program."""
import glob, json, os
root = os.path.join(os.path.dirname(os.path.abspath(__file__)), "..", "seeded")
tp = os.path.join(root, "tightened.json")
T = json.load(open(tp)) if os.path.exists(tp) else {}
np = os.path.join(root, "notes.json")
N = json.load(open(np)) if os.path.exists(np) else {}
M = {t.split(".")[-1] for c in json.load(open(os.path.join(root, "..", "MANIFEST.json")))["claims"] for t in c["theorems"]}
def evidence(d):
    if d["survived"]: return "none: everything still builds"
    if any(x.split(" ")[0] in M for x in d["failed"]): return "proof of a claimed theorem broke"
    return "proof of a lemma broke; claimed theorems that need it were not reached"
n = 0
with open(os.path.join(root, "LOG.jsonl"), "w") as f:
    for p in sorted(glob.glob(os.path.join(root, "results", "*.jsonl"))):
        for l in open(p):
            d = json.loads(l)
            if "ERROR" in d: continue
            t = T.get(d["id"], [])
            f.write(json.dumps(dict(id=d["id"], definition=d["definition"], edit=d["edit"], claim=d["claim"],
                theorems_failed=d["failed"], survived=d["survived"], theorems_tightened=t,
                evidence=evidence(d), **({"note": N[d["id"]]} if d["id"] in N else {}))) + "\n"); n += 1
print(n)

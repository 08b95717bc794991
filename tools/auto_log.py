#!/usr/bin/env python3
"""auto_log.py RUN IN.jsonl: turns the output of automut.py into seeded/results/20-autoRUN.jsonl; mutants that are not valid programs are left out.
Needs /tmp/claims_of.json (claims_of.py)."""
import json, os, sys
root = os.path.join(os.path.dirname(os.path.abspath(__file__)), "..")
C = json.load(open("/tmp/claims_of.json"))
run, src = sys.argv[1:3]
n = 0
with open(os.path.join(root, "seeded", "results", "20-auto%s.jsonl" % run), "w") as f:
    for i, l in enumerate(open(src)):
        d = json.loads(l)
        d["definition"] = d["definition"] or d["new"].split(" def ")[-1].split()[0]
        if d["verdict"] in ("invalid", "timeout"): continue
        cs = sorted({c for k, v in C.get(d["file"], {}).items() if k == d["definition"] or k.endswith("." + d["definition"]) for c in v})
        f.write(json.dumps(dict(id="auto%s-%d" % (run, i), definition="%s (%s)" % (d["definition"], d["file"]),
            edit="`%s` becomes `%s`" % (d["old"], d["new"]), claim=", ".join(cs), failed=d["failed"], survived=d["verdict"] == "survived")) + "\n"); n += 1
print(n)

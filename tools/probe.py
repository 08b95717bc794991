#!/usr/bin/env python3
"""Checks whether a seeded edit makes the *statement* of a claim false, not only its proof. Usage: probe.py PROBE SEEDS.json [id...]
PROBE is a file in seeded/probes: Lean text that imports only models and specifications, and evaluates instances of the statements of the claims on
concrete inputs, printing `FAIL <claim> <what>` for each that is false. It must print nothing of the kind for the unedited model. For each seed it is
run against the edited model in a scratch copy; one JSON line per seed says which instances were false. This is a test, not a proof: that no instance
was false says nothing."""
import json, os, re, shutil, subprocess, sys
ROOT = "/verif/lean"; MUT = os.environ.get("MUT", "/tmp/mut")
probe = open(os.path.join("/verif/seeded/probes", sys.argv[1] + ".probe")).read()
mods = re.findall(r"(?m)^import (Verif\S+)", probe)
seeds = json.load(open(sys.argv[2])); only = set(sys.argv[3:])
if os.path.isdir(MUT): shutil.rmtree(MUT)
shutil.copytree(ROOT, MUT, symlinks=True)
for dp, dn, fn in os.walk(os.path.join(MUT, "Verif")):
    for f in fn:
        if f.endswith(".lean"):
            t = open(os.path.join(dp, f)).read()
            u = re.sub(r"(?m)^#guard.*\n(?:[ \t]+.*\n)*", "", t)
            if u != t: open(os.path.join(dp, f), "w").write(u)
open(os.path.join(MUT, "Probe.lean"), "w").write(probe)
def run():
    b = subprocess.run(["lake", "build"] + mods, cwd=MUT, capture_output=True, text=True)
    if b.returncode: return dict(refuted=None, why="models do not build", detail=re.findall(r"error: (.*)", b.stdout + b.stderr)[:2])
    try: r = subprocess.run(["lake", "env", "lean", "Probe.lean"], cwd=MUT, capture_output=True, text=True, timeout=600)
    except subprocess.TimeoutExpired: return dict(refuted=None, why="probe ran out of time")
    out = r.stdout + r.stderr
    fails = sorted(set(re.findall(r"FAIL (C\d\d .*)", out)))
    if fails: return dict(refuted=True, false_instances=fails[:6])
    if "DONE" not in out: return dict(refuted=None, why="probe did not finish", detail=out[-300:])
    return dict(refuted=False)
base = run(); print("baseline", base, file=sys.stderr)
assert base.get("refuted") is False, base
for s in seeds:
    if only and s["id"] not in only: continue
    p = os.path.join(MUT, "Verif", s["file"]); orig = open(p).read()
    if s["old"] not in orig: print(json.dumps(dict(id=s["id"], refuted=None, why="pattern not found"))); continue
    open(p, "w").write(orig.replace(s["old"], s["new"], 1))
    d = run(); open(p, "w").write(orig)
    print(json.dumps(dict(id=s["id"], **d)), flush=True)

#!/usr/bin/env python3
"""Seeded-bug tests. Usage: mutate.py SEEDS.json [name...]
Each seed: {"id", "file" (under lean/Verif), "definition", "old", "new", "edit", "claim", "target" (module to build)}.
The edit is applied to a scratch copy in /tmp/mut; the failing theorems are printed as JSON lines."""
import json, os, re, shutil, subprocess, sys
ROOT = "/verif/lean"; MUT = os.environ.get("MUT", "/tmp/mut")
def sync():
    if not os.path.isdir(MUT): shutil.copytree(ROOT, MUT)
    subprocess.run(["rsync", "-a", "--delete", ROOT + "/", MUT + "/"]) if shutil.which("rsync") else (
        shutil.rmtree(MUT), shutil.copytree(ROOT, MUT))
def enclosing(path, line):
    name = None
    ls = open(path).read().split("\n")
    if ls[line - 1].startswith("/--"):  # errors about a whole declaration are located at its comment
        while line < len(ls) and not re.match(r"\s*(?:@\[|private |protected |noncomputable |theorem|def|example|instance|structure|inductive|abbrev)", ls[line - 1]): line += 1
    for i, l in enumerate(open(path), 1):
        m = re.match(r"\s*(?:@\[[^\]]*\]\s*)?(?:private |protected |noncomputable )*(theorem|def|example|instance|structure|inductive|abbrev)\b\s*(\S*)", l)
        if m and i <= line: name = (m.group(2) if m.group(1) != "example" else "example@%d" % i)
        if i > line: break
    return name
seeds = json.load(open(sys.argv[1])); only = set(sys.argv[2:])
sync()
# drop sanity tests, so that only theorems can reject an edit
for dp, dn, fn in os.walk(os.path.join(MUT, "Verif")):
    for f in fn:
        if f.endswith(".lean"):
            t = open(os.path.join(dp, f)).read()
            u = re.sub(r"(?m)^#guard.*\n(?:[ \t]+.*\n)*", "", t)
            if u != t: open(os.path.join(dp, f), "w").write(u)
for s in seeds:
    if only and s["id"] not in only: continue
    p = os.path.join(MUT, "Verif", s["file"])
    orig = open(p).read()
    if orig.count(s["old"]) < 1: print(json.dumps({"id": s["id"], "ERROR": "pattern not found"})); continue
    text = orig.replace(s["old"], s["new"], 1)
    open(p, "w").write(text)
    r = subprocess.run(["lake", "build"] + s.get("target", "Verif").split(), cwd=MUT, capture_output=True, text=True)
    out = r.stdout + r.stderr
    fails = []
    for m in re.finditer(r"error: (Verif/\S+\.lean):(\d+):", out):
        n = enclosing(os.path.join(MUT, m.group(1)), int(m.group(2)))
        f = "%s (%s)" % (n, m.group(1))
        if f not in fails: fails.append(f)
    open(p, "w").write(orig)
    print(json.dumps({"id": s["id"], "definition": s["definition"], "edit": s["edit"], "claim": s["claim"],
        "failed": fails, "survived": r.returncode == 0}), flush=True)

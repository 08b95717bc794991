#!/usr/bin/env python3
"""Mechanical mutants of the models. Usage: automut.py N SEED FILE...
Draws (reproducibly) up to N small edits of each model FILE (under lean/Verif): a comparison, a constant, a connective or an operator is
replaced by a neighbour, outside of comments and proofs. Each is built in a scratch copy together with every property file that depends on the model.
One JSON line each: invalid (the edited file itself does not compile), killed (a theorem failed), examples (only examples failed) or survived."""
import json, os, random, re, shutil, subprocess, sys
ROOT = "/verif/lean"; MUT = os.environ.get("MUT", "/tmp/mut3")
N, seed, files = int(sys.argv[1]), int(sys.argv[2]), sys.argv[3:]
OPS = [(r" < ", [" ≤ "]), (r" ≤ ", [" < "]), (r" > ", [" ≥ "]), (r" ≥ ", [" > "]), (r" == ", [" != "]), (r" != ", [" == "]),
    (r" && ", [" || "]), (r" \|\| ", [" && "]), (r" ∧ ", [" ∨ "]), (r" ∨ ", [" ∧ "]), (r"\btrue\b", ["false"]), (r"\bfalse\b", ["true"]),
    (r" \+ ", [" - "]), (r" - ", [" + "]), (r" \* ", [" + "]), (r" % ", [" / "]), (r" ≠ ", [" = "]), (r"(?<=if )(?!let|h)", ["¬ "]),
    (r"(?<![\w.#'])\d+(?![\w.#'])", ["INC", "DEC"]), (r"\bmin\b", ["max"]), (r"\bmax\b", ["min"]), (r" <<< ", [" >>> "]), (r" >>> ", [" <<< "]),
    (r" &&& ", [" ||| "]), (r" \|\|\| ", [" &&& "]), (r"\.take\b", [".drop"]), (r"\.drop\b", [".take"]), (r"\.any\b", [".all"]), (r"\.all\b", [".any"]),
    (r"\.1\b", [".2"]), (r"\.2\b", [".1"]), (r"\.reverse\b", [""])]
def blank(t):  # same length, comments, strings and proofs blanked
    out = list(t); i = 0
    def wipe(a, b):
        for k in range(a, b):
            if out[k] != "\n": out[k] = "\x00"
    for m in re.finditer(r"/-.*?-/|--[^\n]*|\"(?:\\.|[^\"\\])*\"", t, re.S): wipe(*m.span())
    s = "".join(out)
    for m in re.finditer(r"(?m)^(theorem|example|#guard|termination_by|decreasing_by|deriving|import|open|namespace|variable).*\n(?:[ \t]+.*\n|\n)*", s): wipe(*m.span())
    s = "".join(out)
    for m in re.finditer(r"\bby (simp|omega|decide)[^\n]*", s): wipe(*m.span())
    return "".join(out)
def mutants(text):
    b = blank(text); res = []
    for pat, reps in OPS:
        for m in re.finditer(pat, b):
            for r in reps:
                if r == "INC": new = str(int(m.group()) + 1)
                elif r == "DEC":
                    if int(m.group()) == 0: continue
                    new = str(int(m.group()) - 1)
                else: new = r
                res.append((m.start(), m.end(), new))
    for m in re.finditer(r"\bguard \([^\n]*\)", b): res.append((m.start(), m.end(), "pure ()"))   # a dropped check
    lines = [(m.start(), m.end()) for m in re.finditer(r"[^\n]*\n", b)]
    for (a1, e1), (a2, e2) in zip(lines, lines[1:]):   # right hand sides of two neighbouring cases exchanged
        x, y = b[a1:e1 - 1], b[a2:e2 - 1]
        if x.strip().startswith("|") and y.strip().startswith("|") and " => " in x and " => " in y:
            (l1, r1), (l2, r2) = x.split(" => ", 1), y.split(" => ", 1)
            if r1 != r2 and r1.strip() and r2.strip() and "\x00" not in x + y: res.append((a1, e2 - 1, l1 + " => " + r2 + "\n" + l2 + " => " + r1))
    return sorted(set(res))
def imports(p): return re.findall(r"(?m)^import (Verif\.\S+)", open(p).read())
mods = {}
for dp, dn, fn in os.walk(os.path.join(ROOT, "Verif")):
    for f in fn:
        if f.endswith(".lean"):
            p = os.path.join(dp, f); mods[os.path.relpath(p, ROOT)[:-5].replace("/", ".")] = imports(p)
def dependents(m):
    seen = {m}; ch = True
    while ch:
        ch = False
        for k, v in mods.items():
            if k not in seen and any(x in seen for x in v): seen.add(k); ch = True
    return sorted(k for k in seen if ".Props" in k)
def enclosing(path, line):
    name = None
    for i, l in enumerate(open(path), 1):
        m = re.match(r"\s*(?:@\[[^\]]*\]\s*)?(?:private |protected |noncomputable )*(theorem|def|example|instance|structure|inductive|abbrev)\b\s*(\S*)", l)
        if m and i <= line: name = (m.group(2) if m.group(1) != "example" else "example@%d" % i)
        if i > line: break
    return name
if os.path.isdir(MUT): shutil.rmtree(MUT)
shutil.copytree(ROOT, MUT, symlinks=True)
for dp, dn, fn in os.walk(os.path.join(MUT, "Verif")):
    for f in fn:
        if f.endswith(".lean"):
            t = open(os.path.join(dp, f)).read()
            u = re.sub(r"(?m)^#guard.*\n(?:[ \t]+.*\n)*", "", t)
            if u != t: open(os.path.join(dp, f), "w").write(u)
for f in files:
    p = os.path.join(MUT, "Verif", f); orig = open(p).read(); ms = mutants(orig)
    rnd = random.Random("%d %s" % (seed, f)); pick = rnd.sample(ms, min(N, len(ms)))
    targets = dependents("Verif." + f[:-5].replace("/", "."))
    for a, e, new in pick:
        line = orig.count("\n", 0, a) + 1
        ls = orig.rfind("\n", 0, a) + 1; le = orig.find("\n", e)
        open(p, "w").write(orig[:a] + new + orig[e:])
        try:
            r = subprocess.run(["lake", "build"] + targets, cwd=MUT, capture_output=True, text=True, timeout=1500); out = r.stdout + r.stderr; rc = r.returncode
        except subprocess.TimeoutExpired: out = ""; rc = None
        fails = []; own = False
        for m in re.finditer(r"error: (Verif/\S+\.lean):(\d+):", out):
            if m.group(1) == "Verif/" + f:
                own = enclosing(os.path.join(MUT, m.group(1)), int(m.group(2))); 
            n = "%s (%s)" % (enclosing(os.path.join(MUT, m.group(1)), int(m.group(2))), m.group(1))
            if n not in fails: fails.append(n)
        open(p, "w").write(orig)
        st = ("timeout" if rc is None else "survived" if rc == 0 else "invalid" if own else
              "examples" if fails and all(x.startswith("example@") for x in fails) else "killed")
        print(json.dumps(dict(file=f, line=line, definition=enclosing(p, line), old=orig[ls:le].strip(), new=(orig[ls:a] + new + orig[e:le]).strip(), verdict=st, failed=fails[:4]), ensure_ascii=False), flush=True)

#!/usr/bin/env python3
"""Writes /tmp/claims_of.json: for every definition of a model, the claims whose theorems speak about it (directly or through other
definitions). Used to say in the log which claims a mechanical mutant concerns."""
import json, os, re, subprocess
root = os.path.join(os.path.dirname(os.path.abspath(__file__)), "..")
m = json.load(open(os.path.join(root, "MANIFEST.json")))
names = [(c["property"], n) for c in m["claims"] for n in c["theorems"]]
s = """import Verif
import Lean
open Lean Meta Elab Command
def modOf (env : Environment) (n : Name) : Option Name := do
  let i ← env.getModuleIdxFor? n
  env.header.moduleNames[i.toNat]?
partial def collect (env : Environment) (n : Name) (acc : NameSet) : NameSet :=
  match env.find? n with
  | none => acc
  | some ci =>
    let cs := ci.type.getUsedConstants ++ (match ci with | .thmInfo _ => #[] | _ => (ci.value?.map (·.getUsedConstants)).getD #[])
    cs.foldl (init := acc) fun acc c =>
      match modOf env c with
      | some m => if !m.toString.startsWith "Verif." || acc.contains c then acc else collect env c (acc.insert c)
      | none => acc
def names : List (String × Name) := [""" + ",\n".join('("%s", `%s)' % x for x in names) + """]
#eval show CommandElabM Unit from do
  let env ← getEnv
  for (p, n) in names do
    for c in (collect env n {}).toList do
      if ((((modOf env c).getD .anonymous).toString.splitOn ".Model").length > 1) then IO.println s!"@ {p} {c} {(modOf env c).getD .anonymous}"
"""
open("/tmp/ClaimsOf.lean", "w").write(s)
out = subprocess.run(["lake", "env", "lean", "/tmp/ClaimsOf.lean"], cwd=os.path.join(root, "lean"), capture_output=True, text=True).stdout
d = {}
for p, c, mod in re.findall(r"@ (\S+) (\S+) (\S+)", out): d.setdefault(mod.split(".", 1)[1].replace(".", "/") + ".lean", {}).setdefault(c, set()).add(p)
json.dump({f: {c: sorted(x) for c, x in sorted(v.items())} for f, v in sorted(d.items())}, open("/tmp/claims_of.json", "w"), indent=1)
print(sum(len(v) for v in d.values()))

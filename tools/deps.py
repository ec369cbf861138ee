#!/usr/bin/env python3
"""Writes, for every theorem of the manifest, the declarations of the project it uses, directly or not, to
/tmp/deps.json. Needs a built lean/."""
import json, os, subprocess
root = os.path.dirname(os.path.dirname(os.path.abspath(__file__)))
names = sorted({t for c in json.load(open(root + '/MANIFEST.json'))['claims'] for t in c['theorems']})
src = '''import Verif
open Lean
run_cmd do
  let env ← getEnv
  let out ← IO.getStdout
  let inside (n : Name) : Bool := match env.getModuleIdxFor? n with
    | some i => (env.header.moduleNames[i.toNat]!).getRoot == `Verif
    | none => false
  for (n, c) in env.constants.map₁ do
    if inside n then
      let us := c.getUsedConstantsAsSet.toList.filter inside
      out.putStrLn s!"{n}\\t{String.intercalate "\\t" (us.map toString)}"
'''
open('/tmp/deps.lean', 'w').write(src)
r = subprocess.run(['lake', 'env', 'lean', '/tmp/deps.lean'], cwd=root + '/lean', capture_output=True, text=True)
uses = {}
for l in r.stdout.splitlines():
    n, *d = l.split('\t')
    uses[n] = d
res = {}
for n in names:
    full = n if n in uses else 'EFG.' + n
    seen, todo = set(), [full]
    while todo:
        m = todo.pop()
        if m in uses and m not in seen:
            seen.add(m)
            todo.extend(uses[m])
    if seen:
        res[n] = sorted(seen)
json.dump(res, open('/tmp/deps.json', 'w'))
print(len(names), 'theorems', len(res), 'read', r.stdout[:300] if len(res) < len(names) else '')

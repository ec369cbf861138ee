#!/usr/bin/env python3
"""Rewrites section 6 of DESIGN.md: the axioms every theorem of the manifest depends on. Needs a built lean/."""
import json, os, re, subprocess
root = os.path.dirname(os.path.dirname(os.path.abspath(__file__)))
names = []
for c in json.load(open(root + '/MANIFEST.json'))['claims']:
    names += [t for t in c['theorems'] if t not in names]
open('/tmp/axioms.lean', 'w').write('import Verif\n' + ''.join('#print axioms %s\n' % n for n in names))
r = subprocess.run(['lake', 'env', 'lean', '/tmp/axioms.lean'], cwd=root + '/lean', capture_output=True, text=True)
out = re.sub(r'\s+', ' ', r.stdout)
groups = {}
for n in names:
    m = re.search(r"'%s' (?:depends on axioms: \[([^\]]*)\]|does not depend on any axioms)" % re.escape(n), out)
    assert m, n
    groups.setdefault(m.group(1) or '', []).append(n)
text = '## 6. Axioms per theorem\n\nAs printed by `#print axioms` (written by `tools/axioms.py`).\n'
for a in sorted(groups, key=len):
    text += '\n* %s: %s\n' % (('`' + a.replace(', ', '`, `') + '`') if a else 'none',
        ', '.join('`' + n.replace('EFG.', '') + '`' for n in groups[a]))
p = root + '/DESIGN.md'
d = open(p).read()
d = d.split('## 6. Axioms per theorem')[0].rstrip() + '\n\n' + text
open(p, 'w').write(d)
print({a: len(l) for a, l in groups.items()})

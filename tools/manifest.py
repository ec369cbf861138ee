#!/usr/bin/env python3
"""Writes lean/Verif.lean (imports of all modules) and MANIFEST.json from the theorem names in
lean/Verif/Props and the statuses and notes in tools/status.json."""
import glob, json, os, re
root = os.path.dirname(os.path.dirname(os.path.abspath(__file__)))
files = sorted(glob.glob(root + '/lean/Verif/**/*.lean', recursive=True))
order = {'Model': 0, 'Spec': 1, 'Lemmas': 2, 'Props': 3, 'Tests': 4}
files.sort(key=lambda f: (order[f.split('/Verif/')[1].split('/')[0]], f))
with open(root + '/lean/Verif.lean', 'w') as o:
    for f in files:
        o.write('import Verif.' + f.split('/lean/Verif/')[1][:-5].replace('/', '.') + '\n')
thms = {}
for f in files:
    if '/Props/' not in f:
        continue
    spaces = []
    for m in re.finditer(r'^(namespace|section|mutual|end|theorem)(?: +([\w.]+))?', open(f).read(), re.M):
        word, name = m.group(1), m.group(2) or ''
        if word == 'namespace':
            spaces.append(name)
        elif word in ('section', 'mutual'):
            spaces.append('')
        elif word == 'end':
            spaces.pop()
        elif re.match(r'C\d\d_', name):
            thms.setdefault(name[:3], []).append('.'.join([n for n in spaces if n] + [name]))
st = json.load(open(root + '/tools/status.json'))
claims = []
for l in open(root + '/properties.jsonl'):
    p = json.loads(l)['id']
    if p in st:
        claims.append({'property': p, 'status': st[p][0], 'theorems': thms.get(p, []), 'note': st[p][1]})
    elif p in thms:
        print('no status for', p)
json.dump({'claims': claims}, open(root + '/MANIFEST.json', 'w'), indent=1, ensure_ascii=False)
print(len(claims), 'claims', sum(len(c['theorems']) for c in claims), 'theorems')

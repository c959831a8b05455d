#!/usr/bin/env python3
"""Rebuilds MANIFEST.json from the theorems named Cnn_* of lean/Verif/Props and tools/notes.json,
and lean/Verif.lean from the list of modules."""
import json, os, re
root = os.path.dirname(os.path.dirname(os.path.abspath(__file__)))
mods = []
for d, _, fs in os.walk(os.path.join(root, 'lean/Verif')):
    for f in fs:
        if f.endswith('.lean'):
            rel = os.path.relpath(os.path.join(d, f), os.path.join(root, 'lean'))
            mods.append(rel[:-5].replace('/', '.'))
open(os.path.join(root, 'lean/Verif.lean'), 'w').write(''.join('import %s\n' % m for m in sorted(mods)))
thms = {}
pd = os.path.join(root, 'lean/Verif/Props')
for f in sorted(os.listdir(pd)):
    s = open(os.path.join(pd, f)).read()
    ns = re.search(r'^namespace (\S+)', s, re.M).group(1)
    for m in re.finditer(r'^theorem (C\d+_\w+)', s, re.M):
        if re.search(r'_case(_partial)?$', m.group(1)):
            continue  # a concrete case of a theorem, not a claim
        thms.setdefault(m.group(1).split('_')[0], []).append(ns + '.' + m.group(1))
notes = json.load(open(os.path.join(root, 'tools/notes.json')))
claims = []
for line in open(os.path.join(root, 'properties.jsonl')):
    i = json.loads(line)['id']
    if i not in thms:
        continue
    part = any(t.endswith('_partial') or t.endswith('_fails') for t in thms[i])
    claims.append({'property': i, 'status': 'partial' if part else 'proved', 'theorems': thms[i],
                   'note': notes.get(i, '')})
json.dump({'claims': claims}, open(os.path.join(root, 'MANIFEST.json'), 'w'), indent=1, ensure_ascii=False)
print(len(claims), 'claims,', sum(len(c['theorems']) for c in claims), 'theorems,',
      sum(c['status'] == 'partial' for c in claims), 'partial')

#!/usr/bin/env python3
"""Rebuild MANIFEST.json from the theorem names `Cxx_...` under lean/Verif and the notes in tools/notes.json."""
import json, os, re
root = os.path.dirname(os.path.dirname(os.path.abspath(__file__)))
names = {}
for d, _, fs in sorted(os.walk(os.path.join(root, 'lean/Verif'))):
    for f in sorted(fs):
        if f.endswith('.lean'):
            for m in re.finditer(r'^theorem (C(\d\d+)_\w+)', open(os.path.join(d, f)).read(), re.M):
                names.setdefault('C' + m.group(2), []).append(m.group(1))
notes = json.load(open(os.path.join(root, 'tools/notes.json')))
claims = []
for line in open(os.path.join(root, 'properties.jsonl')):
    i = json.loads(line)['id']
    th = names.get(i, [])
    n = notes.get(i, {})
    status = n.get('status') or ('partial' if any(t.endswith('_partial') for t in th) or not th else 'proved')
    claims.append({'property': i, 'status': status, 'theorems': ['IceFrost.' + t for t in th],
                   'note': n.get('note', '' if th else 'not proved yet')})
json.dump({'claims': claims}, open(os.path.join(root, 'MANIFEST.json'), 'w'), indent=1)
print({s: sum(c['status'] == s for c in claims) for s in ('proved', 'partial', 'not_applicable')})

#!/usr/bin/env python3
"""Rewrite the per-property table of DESIGN.md (between the two markers) from properties.jsonl, MANIFEST.json,
tools/notes.json and tools/how.json."""
import json, os
root = os.path.dirname(os.path.dirname(os.path.abspath(__file__)))
rd = lambda p: open(os.path.join(root, p)).read()
props = [json.loads(l) for l in rd('properties.jsonl').splitlines()]
man = {c['property']: c for c in json.loads(rd('MANIFEST.json'))['claims']}
how = json.loads(rd('tools/how.json'))
rows = ['| id | property | status | modelled and proved by | outcome |', '|---|---|---|---|---|']
for p in props:
    c = man[p['id']]
    rows.append('| %s | %s | %s | %s | %s |' % (p['id'], p['title'], c['status'], how.get(p['id'], ''),
                                               c['note'] or 'holds'))
begin, end = '<!-- table -->', '<!-- /table -->'
s = rd('DESIGN.md')
a, b = s.index(begin) + len(begin), s.index(end)
open(os.path.join(root, 'DESIGN.md'), 'w').write(s[:a] + '\n' + '\n'.join(rows) + '\n' + s[b:])
missing = [p['id'] for p in props if p['id'] not in how]
print('rows', len(props), 'without how:', missing)

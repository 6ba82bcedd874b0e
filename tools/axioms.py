#!/usr/bin/env python3
"""Rebuild AXIOMS.md: the axioms every theorem named in MANIFEST.json depends on (`lake build` first)."""
import json, os, subprocess, tempfile
root = os.path.dirname(os.path.dirname(os.path.abspath(__file__)))
claims = json.load(open(os.path.join(root, 'MANIFEST.json')))['claims']
names = [t for c in claims for t in c['theorems']]
with tempfile.TemporaryDirectory() as d:
    f = os.path.join(d, 'a.lean')
    open(f, 'w').write('import Verif\n' + ''.join('#print axioms %s\n' % n for n in names))
    out = subprocess.run(['lake', 'env', 'lean', f], cwd=os.path.join(root, 'lean'), capture_output=True, text=True).stdout
import re
ax = {}
for m in re.finditer(r"'([^']+)' (does not depend on any axioms|depends on axioms: \[([^\]]*)\])", out):
    ax[m.group(1)] = ', '.join(m.group(3).replace('\n', ' ').split(', ')) if m.group(3) else 'none'
assert all(n in ax for n in names), [n for n in names if n not in ax]
with open(os.path.join(root, 'AXIOMS.md'), 'w') as o:
    o.write('# Axioms per theorem\n\nOutput of `#print axioms` for every theorem named in `MANIFEST.json` '
            '(`tools/axioms.py`).\n\n| theorem | axioms |\n|---|---|\n')
    for n in names:
        o.write('| %s | %s |\n' % (n.split('.')[-1], re.sub(r'\s+', ' ', ax[n])))
print(len(names), sorted(set(re.sub(r'\s+', ' ', v) for v in ax.values())))

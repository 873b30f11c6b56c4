#!/usr/bin/env python3
"""DESIGN.md = tools/design.head.md + a table of the axioms of every theorem of MANIFEST.json"""
import json, re, subprocess, tempfile
m = json.load(open('/verif/MANIFEST.json'))
names = [t for c in m['claims'] for t in c['theorems']]
with tempfile.NamedTemporaryFile('w', suffix='.lean', delete=False) as f:
    f.write('import Verif\n' + ''.join(f'#print axioms {n}\n' for n in names))
out = subprocess.run(['lake', 'env', 'lean', f.name], cwd='/verif/lean', capture_output=True, text=True).stdout
ax = {}
for g in re.finditer(r"'([^\s']+)' (does not depend on any axioms|depends on axioms: \[([^\]]*)\])", out):
    ax[g[1]] = ', '.join(sorted(x.strip() for x in (g[3] or '').split(',') if x.strip())) or 'none'
assert set(ax) == set(names), set(names) - set(ax)
by = {}
for n in names: by.setdefault(ax[n], []).append(n.split('.')[-1])
s = open('/verif/tools/design.head.md').read() + '## Axioms each theorem depends on\n\n'
for k in sorted(by, key=len):
    s += f'* {k} ({len(by[k])} theorems): ' + ', '.join(by[k]) + '\n'
open('/verif/DESIGN.md', 'w').write(s)

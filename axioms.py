#!/usr/bin/env python3
"""Print the axioms of every theorem of MANIFEST.json (run after `lake build`); writes AXIOMS.md."""
import json, subprocess, re, os
m = json.load(open('/verif/MANIFEST.json'))
names = []
for c in m['claims']:
    for t in c['theorems']:
        if t not in names: names.append(t)
src = 'import Verif\n' + ''.join(f'#print axioms {n}\n' for n in names)
open('/tmp/axioms_check.lean','w').write(src)
out = subprocess.run(['lake','env','lean','/tmp/axioms_check.lean'],cwd='/verif/lean',capture_output=True,text=True).stdout
out = re.sub(r'\n\s+', ' ', out)
rows = {}
for l in out.splitlines():
    a = re.match(r"'(.+)' depends on axioms: \[(.*)\]", l)
    b = re.match(r"'(.+)' does not depend on any axioms", l)
    if a: rows[a.group(1)] = a.group(2)
    elif b: rows[b.group(1)] = '—'
with open('/verif/AXIOMS.md','w') as f:
    f.write('# Axioms of the theorems of MANIFEST.json\n\nGenerated by `axioms.py` with `#print axioms`.\n\n| Theorem | Axioms |\n|---|---|\n')
    for n in names: f.write(f'| `{n}` | {rows.get(n,"?")} |\n')
print(len(names), set(rows.values()), [n for n in names if n not in rows])

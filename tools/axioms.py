#!/usr/bin/env python3
"""Rewrite the table of axioms at the end of DESIGN.md from MANIFEST.json.

usage: axioms.py [lean project, default /verif/lean]
"""
import json, re, subprocess, sys
LEAN = sys.argv[1] if len(sys.argv) > 1 else '/verif/lean'
ts = [t for c in json.load(open('/verif/MANIFEST.json'))['claims'] for t in c['theorems']]
open('/tmp/axioms.lean', 'w').write('import Verif\n' + ''.join(f'#print axioms {t}\n' for t in ts))
out = subprocess.run(f'cd {LEAN} && lake env lean /tmp/axioms.lean', shell=True, capture_output=True, text=True).stdout
rows = []
for t in ts:
    m = re.search(r"'" + re.escape(t) + r"' (depends on axioms: \[([^\]]*)\]|does not depend)", out)
    ax = '?' if m is None else ('none' if m.group(2) is None else ', '.join(x.strip() for x in m.group(2).split(',')))
    rows.append((t, ax))
sets = {}
for t, a in rows:
    sets.setdefault(a, []).append(t)
MARK = '## Axioms per theorem\n'
d = open('/verif/DESIGN.md').read()
d = d.split(MARK)[0].rstrip() + '\n\n' + MARK + '\nFrom `#print axioms`, written by `tools/axioms.py`.\n\n| theorem | axioms |\n|---|---|\n'
d += ''.join(f'| `{t}` | {a} |\n' for t, a in rows)
open('/verif/DESIGN.md', 'w').write(d)
print({a: len(v) for a, v in sets.items()})

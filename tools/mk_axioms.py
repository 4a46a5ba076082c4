#!/usr/bin/env python3
"""Write AXIOMS.md: the axioms that each theorem named in MANIFEST.json depends on, as reported by Lean.

Needs a finished `lake build` in lean/.
"""
import json, os, re, subprocess

claims = json.load(open('/verif/MANIFEST.json'))['claims']
names = [(c['property'], t) for c in claims for t in c['theorems']]
probe = '/tmp/axioms_probe.lean'
open(probe, 'w').write('import Verif\n' + ''.join(f'#print axioms {t}\n' for _, t in names))
out = subprocess.run(f'lake env lean {probe}', shell=True, cwd='/verif/lean', text=True, stdout=subprocess.PIPE, stderr=subprocess.STDOUT).stdout
found = {n: ', '.join(a.split()).replace(',,', ',') for n, a in re.findall(r"'(\S+)' depends on axioms: \[([^\]]*)\]", out)}
found.update({n: 'none' for n in re.findall(r"'(\S+)' does not depend on any axioms", out)})
missing = [t for _, t in names if t not in found]
assert not missing, (missing, out[-2000:])
kinds = {}
for _, t in names:
    kinds.setdefault(found[t], []).append(t)
with open('/verif/AXIOMS.md', 'w') as f:
    f.write('# Axioms\n\nThe axioms that each theorem of MANIFEST.json depends on (`#print axioms`; written by tools/mk_axioms.py).\n\n')
    f.write('| property | theorem | axioms |\n|---|---|---|\n')
    for p, t in names:
        f.write(f'| {p} | `{t}` | {found[t]} |\n')
for k, ts in kinds.items():
    print(len(ts), k)

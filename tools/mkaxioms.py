#!/usr/bin/env python3
"""Write AXIOMS.md: the axioms that each theorem of MANIFEST.json depends on.  Needs a finished `lake build` in lean/."""
import json, os, re, subprocess, tempfile
root = os.path.dirname(os.path.dirname(os.path.abspath(__file__)))
ts = [(c['property'], t) for c in json.load(open(root + '/MANIFEST.json'))['claims'] for t in c['theorems']]
with tempfile.NamedTemporaryFile('w', suffix='.lean', delete=False) as f:
    f.write('import Verif\n' + '\n'.join(f'#print axioms {t}' for _, t in ts) + '\n')
out = subprocess.run(['lake', 'env', 'lean', f.name], cwd=root + '/lean', capture_output=True, text=True).stdout
os.unlink(f.name)
ax = {}
for m in re.finditer(r"'([\w.]+)' (?:depends on axioms: \[([^\]]*)\]|does not depend on any axioms)", out):
    ax[m.group(1)] = re.sub(r'\s+', ' ', m.group(2) or 'none')
with open(root + '/AXIOMS.md', 'w') as o:
    o.write('# Axioms of the theorems in MANIFEST.json\n\nOutput of `#print axioms`, written by tools/mkaxioms.py.\n\n| Property | Theorem | Axioms |\n|---|---|---|\n')
    for p, t in ts:
        o.write(f'| {p} | {t} | {ax[t]} |\n')
print(len(ts), sorted(set(ax.values())))

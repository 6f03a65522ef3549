#!/usr/bin/env python3
"""Write MANIFEST.json from the theorem names cNN_… in lean/Verif/Props and the notes below."""
import json, re, glob, os
root = os.path.dirname(os.path.dirname(os.path.abspath(__file__)))
thms = {}
for f in sorted(glob.glob(root + '/lean/Verif/Props/*.lean')):
    for m in re.finditer(r'^theorem (c(\d\d+)_\w+)', open(f).read(), re.M):
        thms.setdefault('C' + m.group(2), []).append('Cose.' + m.group(1))
notes = json.load(open(root + '/tools/notes.json'))
claims = []
for l in open(root + '/properties.jsonl'):
    pid = json.loads(l)['id']
    n = notes.get(pid, {})
    if pid not in thms:
        if n.get('status') == 'not_applicable':
            claims.append(dict(property=pid, status='not_applicable', theorems=[], note=n.get('note', '')))
        continue
    st = n.get('status') or ('partial' if any(t.endswith('_partial') for t in thms[pid]) else 'proved')
    claims.append(dict(property=pid, status=st, theorems=thms[pid], note=n.get('note', '')))
json.dump(dict(claims=claims), open(root + '/MANIFEST.json', 'w'), indent=1)
print({c['property']: (c['status'], len(c['theorems'])) for c in claims})

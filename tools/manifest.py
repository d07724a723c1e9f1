#!/usr/bin/env python3
"""Writes MANIFEST.json: theorems are collected by their Cnn_ name prefix from lean/Verif/Props; status and notes come from NOTES."""
import re, json, glob, os
root = os.path.dirname(os.path.dirname(os.path.abspath(__file__)))
NOTES = {}
exec(open(os.path.join(root, 'tools', 'notes.py')).read())
thms = {}
for f in sorted(glob.glob(os.path.join(root, 'lean/Verif/Props/*.lean'))) + sorted(glob.glob(os.path.join(root, 'lean/Verif/Example*.lean'))):
    txt = open(f).read()
    for m in re.finditer(r'^theorem (C\d\d\d?)(\w*)', txt, re.M):
        thms.setdefault(m.group(1), []).append('Snap.Props.' + m.group(1) + m.group(2))
claims = []
for l in open(os.path.join(root, 'properties.jsonl')):
    p = json.loads(l)['id']
    st, note = NOTES.get(p, (None, ''))
    t = thms.get(p, [])
    if st is None:
        st = 'proved' if t and not any(x.endswith('_partial') or 'counterexample' in x for x in t) else 'partial'
    if not t:
        note = note or 'not proved yet'
    claims.append({'property': p, 'status': st, 'theorems': t, 'note': note})
json.dump({'claims': claims}, open(os.path.join(root, 'MANIFEST.json'), 'w'), indent=1)
for c in claims:
    print(c['property'], c['status'], len(c['theorems']))

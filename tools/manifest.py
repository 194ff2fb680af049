#!/usr/bin/env python3
"""Writes MANIFEST.json: for each property, its status, note and the theorems named after it."""
import json, re, glob, os
root = os.path.dirname(os.path.dirname(os.path.abspath(__file__)))
names = {}
for f in sorted(glob.glob(root + '/lean/Verif/Props/*.lean')):
    ns = []
    for line in open(f):
        m = re.match(r'namespace (\S+)', line)
        if m: ns.append(m.group(1))
        m = re.match(r'end (\S+)', line)
        if m and ns and ns[-1] == m.group(1): ns.pop()
        m = re.match(r'theorem (C(\d\d)_\S+)', line)
        if m: names.setdefault('C' + m.group(2), []).append('.'.join(ns + [m.group(1)]))
notes = json.load(open(root + '/tools/notes.json'))
extra = notes.pop('_also', {})
claims = []
for l in open(root + '/properties.jsonl'):
    i = json.loads(l)['id']
    t = names.get(i, []) + extra.get(i, [])
    st, note = notes.get(i, [None, ''])
    if st is None:
        st = 'partial' if any(x.endswith('_partial') or x.endswith('_false') for x in t) else 'proved'
    if not t and st != 'not_applicable':
        print('no theorem yet:', i); continue
    claims.append({'property': i, 'status': st, 'theorems': t, 'note': note})
json.dump({'claims': claims}, open(root + '/MANIFEST.json', 'w'), indent=1, ensure_ascii=False)
print(len(claims), {s: sum(c['status'] == s for c in claims) for s in ('proved', 'partial', 'not_applicable')})

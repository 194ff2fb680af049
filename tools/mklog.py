#!/usr/bin/env python3
"""Merge the result files of tools/seed.py (later files win) into seeded/LOG.jsonl; seeded/TIGHTENED.json maps a mutant
id to the theorems added or tightened because of it, and to a remark."""
import sys, json, os
root = os.path.dirname(os.path.dirname(os.path.abspath(__file__)))
out = {}
log = root + '/seeded/LOG.jsonl'
for f in [log] + sys.argv[1:]:
    if os.path.exists(f):
        for l in open(f):
            if l.strip():
                d = json.loads(l); out[d['id']] = d
t = root + '/seeded/TIGHTENED.json'
extra = json.load(open(t)) if os.path.exists(t) else {}
for k, v in extra.items():
    if k in out: out[k].update(v)
with open(log, 'w') as f:
    for d in out.values(): f.write(json.dumps(d, ensure_ascii=False) + '\n')
from collections import Counter
print(len(out), Counter(d['status'].split()[0] for d in out.values()))

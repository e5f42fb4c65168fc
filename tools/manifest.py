#!/usr/bin/env python3
"""Regenerate MANIFEST.json: theorem names are collected from lean/Verif/Props/*.lean by their `cNN_` prefix;
status and notes come from tools/status.json."""
import json, re, glob, os
root = os.path.dirname(os.path.dirname(os.path.abspath(__file__)))
status = json.load(open(root + '/tools/status.json'))
props = [json.loads(l)['id'] for l in open(root + '/properties.jsonl') if l.strip()]
names = {p: [] for p in props}
for f in sorted(glob.glob(root + '/lean/Verif/Props/*.lean')):
    ns = []
    for line in open(f):
        m = re.match(r'namespace (\S+)', line)
        if m: ns.append(m.group(1))
        m = re.match(r'end (\S+)', line)
        if m and ns: ns.pop()
        m = re.match(r'(?:@\[[^\]]*\] )?theorem (c(\d\d+)_\S+)', line)
        if m:
            names.setdefault('C' + m.group(2), []).append('.'.join(ns + [m.group(1)]))
claims = []
for p in props:
    if p not in status: continue
    st, note = status[p]
    claims.append({"property": p, "status": st, "theorems": names[p], "note": note})
json.dump({"claims": claims}, open(root + '/MANIFEST.json', 'w'), indent=1, ensure_ascii=False)
print(len(claims), 'claims', sum(len(c['theorems']) for c in claims), 'theorems')
for p in props:
    if names[p] and p not in status: print('no status for', p)
for c in claims:
    if c['status'] != 'not_applicable' and not c['theorems']: print('no theorem for', c['property'])

#!/usr/bin/env python3
"""Regenerates /verif/MANIFEST.json: theorem names are collected from lean/Verif/Props, status and
notes from tools/notes.json."""
import re, json, glob, os
root = os.path.dirname(os.path.dirname(os.path.abspath(__file__)))
ths = {}
for f in sorted(glob.glob(root + '/lean/Verif/Props/*.lean')):
    ns = []
    for line in open(f):
        m = re.match(r'namespace (\S+)', line)
        if m: ns.append(m.group(1))
        m = re.match(r'end (\S+)', line)
        if m and ns and ns[-1] == m.group(1): ns.pop()
        m = re.match(r'theorem ((C\d\d)_\S+)', line)
        if m:
            ths.setdefault(m.group(2), []).append('.'.join(ns + [m.group(1)]))
notes = json.load(open(root + '/tools/notes.json'))
claims = []
for line in open(root + '/properties.jsonl'):
    if not line.strip(): continue
    pid = json.loads(line)['id']
    t = ths.get(pid, [])
    n = notes.get(pid, {})
    status = n.get('status') or ('proved' if t else None)
    if status is None: continue
    claims.append({"property": pid, "status": status, "theorems": t, "note": n.get('note', '')})
json.dump({"claims": claims}, open(root + '/MANIFEST.json', 'w'), indent=1, ensure_ascii=False)
print(len(claims), 'claims', {s: sum(c['status'] == s for c in claims) for s in ('proved', 'partial', 'not_applicable')})

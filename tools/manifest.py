#!/usr/bin/env python3
"""Regenerate MANIFEST.json: theorem names are collected from the Props files by their
Cxx_ prefix; status and notes come from tools/status.json."""
import json, re, glob, os
root = os.path.dirname(os.path.dirname(os.path.abspath(__file__)))
props = [json.loads(l) for l in open(root + '/properties.jsonl') if l.strip()]
status = json.load(open(root + '/tools/status.json'))
thms = {}
for f in sorted(glob.glob(root + '/lean/Verif/**/*.lean', recursive=True)):
    ns = []
    for line in open(f):
        m = re.match(r'namespace\s+(\S+)', line)
        if m: ns.append(m.group(1))
        m = re.match(r'end\s+(\S+)', line)
        if m and ns and ns[-1] == m.group(1): ns.pop()
        m = re.match(r'theorem\s+((C\d+)_\S+)', line)
        if m: thms.setdefault(m.group(2), []).append('.'.join(ns + [m.group(1)]))
claims = []
for p in props:
    i = p['id']
    st = status.get(i)
    if st is None: 
        continue
    claims.append({"property": i, "status": st[0], "theorems": thms.get(i, []), "note": st[1]})
    assert thms.get(i) or st[0] == 'not_applicable', i
json.dump({"claims": claims}, open(root + '/MANIFEST.json', 'w'), indent=1)
ids = {p['id'] for p in props}
print(len(claims), 'claims;', 'missing:', [p['id'] for p in props if p['id'] not in status],
      'unknown:', [k for k in thms if k not in ids], 'no status:', [k for k in thms if k not in status])

#!/usr/bin/env python3
"""Generate MANIFEST.json: theorem names are collected from the Lean sources (theorems named Cnn_*)."""
import re, glob, json, os
root = os.path.dirname(os.path.dirname(os.path.abspath(__file__)))
thms = {}
for f in sorted(glob.glob(root + '/lean/Verif/**/*.lean', recursive=True)):
    ns = []
    for line in open(f):
        m = re.match(r'namespace (\S+)', line)
        if m: ns.append(m.group(1))
        m = re.match(r'end (\S+)', line)
        if m and ns and ns[-1] == m.group(1): ns.pop()
        m = re.match(r'(?:private )?theorem (C\d\d_\w+)', line)
        if m:
            thms.setdefault(m.group(1)[:3], []).append('.'.join(ns + [m.group(1)]))
exec(open(root + '/tools/status.py').read())   # STATUS: id -> (status, note)
ids = [json.loads(l)['id'] for l in open(root + '/properties.jsonl')]
claims = []
for i in ids:
    st, note = STATUS.get(i, ('partial' if i in thms else 'not_applicable', ''))
    t = sorted(set(thms.get(i, [])))
    if not t and st in ('proved', 'partial'):
        continue          # not done yet
    if not t and i not in STATUS:
        continue
    claims.append({'property': i, 'status': st, 'theorems': t, 'note': note})
json.dump({'claims': claims}, open(root + '/MANIFEST.json', 'w'), indent=1)
print(len(claims), 'claims;', sum(len(c['theorems']) for c in claims), 'theorems; missing', [i for i in ids if i not in [c['property'] for c in claims]])

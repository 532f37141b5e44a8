#!/usr/bin/env python3
"""Collect theorem names `Cnn_*` from lean/Verif/**/*.lean and merge with tools/claims.json (status/notes) -> MANIFEST.json"""
import re, json, pathlib
root = pathlib.Path(__file__).resolve().parent.parent
claims = json.load(open(root/'tools'/'claims.json'))
thms = {}
for f in sorted((root/'lean'/'Verif').rglob('*.lean')):
    ns = []
    for line in f.read_text().splitlines():
        m = re.match(r'namespace (\S+)', line)
        if m: ns.append(m.group(1)); continue
        m = re.match(r'end (\S+)', line)
        if m and ns and ns[-1] == m.group(1): ns.pop(); continue
        m = re.match(r'(?:protected |private )?theorem (C\d\d+)_(\S+)', line)
        if m:
            name = '.'.join(ns + [m.group(1) + '_' + m.group(2)])
            thms.setdefault(m.group(1), []).append(name)
out = []
props = [json.loads(l)['id'] for l in open(root/'properties.jsonl')]
for p in props:
    c = claims.get(p, {})
    t = thms.get(p, [])
    if not t and c.get('status') != 'not_applicable':
        continue
    st = c.get('status', 'proved')
    out.append({'property': p, 'status': st, 'theorems': t, 'note': c.get('note', '')})
json.dump({'claims': out}, open(root/'MANIFEST.json', 'w'), indent=1, ensure_ascii=False)
print(len(out), 'claims', sum(len(o['theorems']) for o in out), 'theorems; missing:', [p for p in props if p not in [o['property'] for o in out]])
